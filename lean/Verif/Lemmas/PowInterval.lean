import Verif.Props.IntervalFn
import Verif.Lemmas.AlgNum

/-!
The intervals of `PowRootSelector` (`/repo/src/algebraic_numbers.rs:752-775`) for positive results have
no negative members and are in order, even where they miss the value.
-/

namespace Algebraics

open Polynomial

namespace DFI

/-- no end is negative; the ends need not be in order -/
def NN (a : DFI) : Prop := 0 ≤ a.lo ∧ 0 ≤ a.hi

theorem shr_nonneg {a : Int} (h : 0 ≤ a) (n : Nat) : 0 ≤ shr a n := Int.ediv_nonneg h (by positivity)

theorem shl_nonneg {a : Int} (h : 0 ≤ a) (n : Nat) : 0 ≤ shl a n := mul_nonneg h (by positivity)

theorem neg_shr_neg_nonneg {a : Int} (h : 0 ≤ a) (n : Nat) : 0 ≤ -shr (-a) n := by
  have : shr (-a) n ≤ 0 := by
    have h2 := shr_mono (show -a ≤ 0 by omega) n
    have h3 : shr 0 n = 0 := by simp [shr]
    omega
  omega

theorem mulOp_nonneg {p q r s : Int} (hp : 0 ≤ p) (hq : 0 ≤ q) (hr : 0 ≤ r) (hs : 0 ≤ s) (n : Nat) :
    0 ≤ (mulOp p q r s n).1 ∧ 0 ≤ (mulOp p q r s n).2 := by
  obtain ⟨mn, mx, e1, e2, -, -, m1, m2⟩ := mulOp_bounds p q r s n
  have hall : ∀ c ∈ [p * r, p * s, q * r, q * s], 0 ≤ c := by
    intro c hc
    simp only [List.mem_cons, List.not_mem_nil, or_false] at hc
    rcases hc with rfl | rfl | rfl | rfl <;> positivity
  rw [e1, e2]
  exact ⟨shr_nonneg (hall _ m1) _, neg_shr_neg_nonneg (hall _ m2) _⟩

theorem NN.doOp {a b : DFI} (ha : a.NN) (hb : b.NN) {op : Int → Int → Int → Int → Nat → Int × Int}
    (hop : ∀ p q r s n, 0 ≤ p → 0 ≤ q → 0 ≤ r → 0 ≤ s → 0 ≤ (op p q r s n).1 ∧ 0 ≤ (op p q r s n).2) :
    (a.doOp b op).NN := by
  unfold DFI.doOp NN
  split
  · exact hop _ _ _ _ _ (shl_nonneg ha.1 _) (shl_nonneg ha.2 _) hb.1 hb.2
  · exact hop _ _ _ _ _ ha.1 ha.2 (shl_nonneg hb.1 _) (shl_nonneg hb.2 _)

theorem NN.mul {a b : DFI} (ha : a.NN) (hb : b.NN) : (a.mul b).NN :=
  ha.doOp hb fun _ _ _ _ _ h1 h2 h3 h4 => mulOp_nonneg h1 h2 h3 h4 _

theorem NN.add {a b : DFI} (ha : a.NN) (hb : b.NN) : (a.add b).NN :=
  ha.doOp hb fun _ _ _ _ _ h1 h2 h3 h4 => ⟨add_nonneg h1 h3, add_nonneg h2 h4⟩

theorem NN.divInt {a r : DFI} (ha : a.NN) {k : Nat} (h : a.divInt k = some r) : r.NN := by
  unfold DFI.divInt at h
  by_cases hk : (k : Int) = 0
  · rw [if_pos hk] at h; simp at h
  · rw [if_neg hk, Option.some.injEq] at h
    rw [← h]
    have hq : (0 : ℚ) ≤ 1 / ((k : Int) : ℚ) := by positivity
    unfold mulRatio NN
    rw [if_neg (not_lt.mpr hq)]
    have h1 : (0 : ℚ) ≤ a.lo := by exact_mod_cast ha.1
    have h2 : (0 : ℚ) ≤ a.hi := by exact_mod_cast ha.2
    exact ⟨Int.floor_nonneg.mpr (mul_nonneg hq h1), Int.ceil_nonneg (mul_nonneg hq h2)⟩

theorem NN.convert {a : DFI} (ha : a.NN) (n : Nat) : (a.convertLog2Denom n).NN := by
  unfold convertLog2Denom convertLog2DenomFloor convertLog2DenomCeil NN
  dsimp only
  constructor
  · split
    · exact shl_nonneg ha.1 _
    · exact shr_nonneg ha.1 _
  · split
    · exact shl_nonneg ha.2 _
    · exact neg_shr_neg_nonneg ha.2 _

theorem NN.expLoop {x : DFI} (hx : x.NN) : ∀ (count i : Nat) (term ret r : DFI), term.NN → ret.NN →
    expLoop x count i term ret = some r → r.NN := by
  intro count
  induction count with
  | zero => intro i term ret r _ h2 h; simp only [DFI.expLoop, Option.some.injEq] at h; rwa [← h]
  | succ count ih =>
    intro i term ret r h1 h2 h
    simp only [DFI.expLoop, Option.bind_eq_bind, Option.bind_eq_some_iff] at h
    obtain ⟨t, ht, h⟩ := h
    have h3 := (h1.mul hx).divInt ht
    by_cases hc : t.hi = 1 ∨ t.hi = 0
    · rw [if_pos hc] at h
      by_cases h0 : t.lo = 0
      · rw [if_pos h0, Option.some.injEq] at h; rw [← h]; exact h2.add h3
      · rw [if_neg h0] at h; simp at h
    · rw [if_neg hc] at h
      exact ih _ _ _ _ h3 (h2.add h3) h

theorem exp_nonneg (ln2 : Nat → DFI) (hln2 : IsLn2 ln2) (a r : DFI) (hr : a.exp ln2 = some r) : r.NN := by
  unfold exp at hr
  dsimp only at hr
  by_cases hs0 : (ln2 (a.log2Denom + 10)).lo = 0
  · simp [hs0] at hr
  simp only [hs0, if_false, Option.bind_eq_bind, Option.bind_eq_some_iff] at hr
  obtain ⟨k, -, hr⟩ := hr
  generalize hwd : a.log2Denom + 32 + k * 2 + _ = w at hr
  have hw32 : 32 ≤ w := by omega
  obtain ⟨ld, lc, lu⟩ := hln2 w
  generalize ln2 w = l2 at hr ld lc lu
  obtain ⟨l1, l2', l3, l4⟩ := isLn2_bounds ld lc lu
  have hw' : (2:ℝ) ^ 32 ≤ 2 ^ w := pow_le_pow_right₀ (by norm_num) hw32
  have hLpos : 0 < l2.lo := by
    have : (0:ℝ) < l2.lo := by have := log_two_gt; nlinarith
    exact_mod_cast this
  have hHpos : 0 < l2.hi := by
    have : (0:ℝ) < l2.hi := by have := log_two_gt; nlinarith
    exact_mod_cast this
  rw [if_neg (by omega)] at hr
  simp only [Option.bind_eq_some_iff, Option.pure_def, Option.some.injEq] at hr
  obtain ⟨s, hs, hr⟩ := hr
  have h1 : (one w).NN := by
    unfold one fromInt NN
    exact ⟨shl_nonneg (by norm_num) _, shl_nonneg (by norm_num) _⟩
  have hsn : s.NN := NN.expLoop ⟨Int.fmod_nonneg_of_pos _ hHpos, Int.fmod_nonneg_of_pos _ hLpos⟩
    _ _ _ _ _ h1 h1 hs
  rw [← hr]
  apply NN.convert
  constructor
  · dsimp only
    split
    · exact shr_nonneg hsn.1 _
    · exact shl_nonneg hsn.1 _
  · dsimp only
    split
    · exact neg_shr_neg_nonneg hsn.2 _
    · exact shl_nonneg hsn.2 _

/-- `exp` returns its ends in order, for intervals in order. -/
theorem exp_ordered (ln2 : Nat → DFI) (hln2 : IsLn2 ln2) (a r : DFI) (x : ℝ) (hx : a.Contains x)
    (hr : a.exp ln2 = some r) : r.lo ≤ r.hi := by
  obtain ⟨h1, h2⟩ := C08_exp_partial ln2 hln2 a r hr
  obtain ⟨h3, -, h4⟩ := h2 x hx
  have h5 := h3.trans h4
  rw [div_le_div_iff_of_pos_right (by positivity)] at h5
  by_contra hc
  have h6 : ((r.hi + 1 : Int) : ℝ) ≤ r.lo := by exact_mod_cast (by omega : r.hi + 1 ≤ r.lo)
  push_cast at h6
  norm_num at h5
  linarith

end DFI

namespace RealAlg

/-- the intervals asked for by a power with positive result -/
theorem powInterval_nonneg (ln2 : ℕ → DFI) (hln2 : IsLn2 ln2) (e : ℚ) (s : Shrinker) (x : ℝ)
    (hx : s.interval.Contains x) (i : DFI) (h : powInterval ln2 e false s = some i) :
    0 ≤ i.lo ∧ i.lo ≤ i.hi := by
  obtain ⟨a1, a2, a3, a4, a5⟩ := DFI.abs_spec s.interval hx.ordered
  have hab := DFI.contains_abs hx
  unfold powInterval at h
  dsimp only at h
  generalize s.interval.abs = A at h hab
  have hord : A.lo ≤ A.hi := hab.ordered
  by_cases hhi : A.hi = 0
  · rw [if_pos hhi] at h
    by_cases hlo : A.lo = 0
    · simp only [hlo, decide_true, if_true, Option.some.injEq] at h
      rw [← h]; omega
    · simp [hlo] at h
  rw [if_neg hhi] at h
  have key : ∀ (B L E : DFI), B.Ordered → B.log ln2 = some L → (L.mulRatio e).exp ln2 = some E →
      E.NN ∧ E.lo ≤ E.hi := by
    intro B L E hB hL hE
    refine ⟨DFI.exp_nonneg ln2 hln2 _ _ hE, ?_⟩
    have hpos : 0 < B.lo := by
      by_contra hc
      rw [C07_log_not_positive ln2 B (by omega)] at hL
      simp at hL
    obtain ⟨L', h1, -, h2⟩ := C07_log ln2 hln2 B hB hpos
    rw [hL, Option.some.injEq] at h1
    subst h1
    exact DFI.exp_ordered ln2 hln2 _ _ _ (DFI.contains_mulRatio (h2 _ (DFI.contains_lower hB)) e) hE
  by_cases hlo : A.lo = 0
  · simp only [hlo, decide_true, if_true, Option.bind_eq_bind, Option.bind_eq_some_iff,
      Bool.false_eq_true, if_false, Option.pure_def, Option.some.injEq] at h
    obtain ⟨L, hL, E, hE, J, hJ, rfl⟩ := h
    unfold DFI.setLowerBoundToZero at hJ
    by_cases h0 : 0 ≤ E.hi
    · rw [if_pos h0, Option.some.injEq] at hJ
      rw [← hJ]
      exact ⟨le_refl _, h0⟩
    · rw [if_neg h0] at hJ; simp at hJ
  · simp only [hlo, decide_false, Bool.false_eq_true, if_false, Option.bind_eq_bind,
      Option.bind_eq_some_iff, Option.pure_def, Option.some.injEq] at h
    obtain ⟨L, hL, E, hE, J, rfl, rfl⟩ := h
    obtain ⟨h1, h2⟩ := key A L E hord hL hE
    exact ⟨h1.1, h2⟩

end RealAlg

end Algebraics
