import Verif.Spec.IntervalProgram
import Verif.Props.IntervalFn
import Verif.Props.IntervalPow
import Verif.Props.IntervalPowNeg
import Verif.Props.ExpFalse

/-!
# C78: no history of calls turns an interval inside out

Programs of any length over all public functions on intervals.
-/

namespace Algebraics

open DFI

namespace DFI

theorem ordered_of_contains {a : DFI} {x : ℝ} (h : a.Contains x) : a.Ordered := h.ordered

theorem checkedRecip_spec {a r : DFI} (h : a.checkedRecip = some r) (ho : a.Ordered) :
    r.Ordered ∧ r.log2Denom = a.log2Denom := by
  obtain ⟨h1, h2⟩ := (C04_recip a).2 r h
  exact ⟨(h2 _ (contains_lower ho)).ordered, h1⟩

theorem powPos_log2Denom (a : DFI) (e : ℕ) : (a.powPos e).log2Denom = a.log2Denom := rfl

theorem pow_log2Denom {a r : DFI} {e : ℤ} (h : a.pow e = some r) : r.log2Denom = a.log2Denom := by
  unfold DFI.pow at h
  split at h
  · cases h; rfl
  split at h
  · cases h; rfl
  split at h
  · cases h1 : a.checkedRecip with
    | none => rw [h1] at h; cases h
    | some s =>
      rw [h1] at h
      have h2 := ((C04_recip a).2 s h1).1
      change (if e = -1 then some s else some (s.powPos e.natAbs)) = some r at h
      split at h
      · cases h; exact h2
      · cases h; exact h2
  · cases h; rfl

theorem powLoop_retLo_nonneg (n fuel e : ℕ) (s : PowState) (h1 : 0 ≤ s.retLo) (h2 : 0 ≤ s.baseLo) :
    0 ≤ (powLoop n fuel e s).retLo := by
  have hshr : ∀ a : ℤ, 0 ≤ a → 0 ≤ shr a n := fun a ha => by unfold shr; positivity
  induction fuel generalizing e s with
  | zero => exact h1
  | succ fuel ih =>
    unfold powLoop
    by_cases he : e % 2 = 1
    · simp only [he, if_true]
      split
      · exact hshr _ (mul_nonneg h1 h2)
      · exact ih _ _ (hshr _ (mul_nonneg h1 h2)) (hshr _ (mul_nonneg h2 h2))
    · simp only [he, if_false]
      split
      · exact h1
      · exact ih _ _ h1 (hshr _ (mul_nonneg h2 h2))

/-- exactly when a power of at least 2 keeps the ends in order -/
theorem powPos_ordered_iff (a : DFI) (e : ℕ) (he : 2 ≤ e) (ho : a.Ordered) :
    (a.powPos e).Ordered ↔ ¬ (Odd e ∧ a.lo = a.hi ∧ a.hi < 0 ∧
      ¬ ∃ k : ℤ, ((a.hi : ℝ) / 2 ^ a.log2Denom) ^ e = k / 2 ^ a.log2Denom) := by
  obtain ⟨lo, hi, n⟩ := a
  unfold Ordered at ho
  simp only at ho ⊢
  have hp : (0 : ℝ) < 2 ^ n := by positivity
  have hpow : (⟨lo, hi, n⟩ : DFI).pow (e : ℤ) = some ((⟨lo, hi, n⟩ : DFI).powPos e) := by
    unfold DFI.pow
    rw [if_neg (by omega), if_neg (by omega), if_neg (by omega)]
    simp
  by_cases hodd : Odd e
  swap
  · refine iff_of_true ?_ (fun h => hodd h.1)
    have := ((C09_pow_partial ⟨lo, hi, n⟩ e).2 _ hpow _ (contains_lower (by exact ho))
      (Or.inl (by exact_mod_cast Nat.not_odd_iff_even.mp hodd))).2
    exact this.ordered
  have hm : e % 2 = 1 := Nat.odd_iff.mp hodd
  by_cases hpt : lo = hi ∧ hi < 0
  · obtain ⟨rfl, hneg⟩ := hpt
    rw [powPos_odd_point lo n e hneg hm]
    obtain ⟨b1, b2, b3⟩ := powLoop_bounds n e (by omega) (-lo) (-lo) (by omega) le_rfl
    have hc : ((-lo : ℤ) : ℝ) / 2 ^ n = -((lo : ℝ) / 2 ^ n) := by push_cast; ring
    have hcp : (-((lo : ℝ) / 2 ^ n)) ^ e = -((lo : ℝ) / 2 ^ n) ^ e := hodd.neg_pow _
    have hex : (∃ k : ℤ, (((-lo : ℤ) : ℝ) / 2 ^ n) ^ e = k / 2 ^ n) ↔ ∃ k : ℤ, ((lo : ℝ) / 2 ^ n) ^ e = k / 2 ^ n := by
      rw [hc, hcp]
      constructor
      · rintro ⟨k, hk⟩; exact ⟨-k, by push_cast; rw [neg_div, ← hk, neg_neg]⟩
      · rintro ⟨k, hk⟩; exact ⟨-k, by push_cast; rw [neg_div, ← hk]⟩
    rw [← hex]
    unfold Ordered
    simp only
    constructor
    · rintro h ⟨-, -, -, h2⟩
      apply h2
      have h' : -((powLoop n e e ⟨-lo, -lo, shl 1 n, -shl 1 n⟩).retLo : ℝ) ≤
          (powLoop n e e ⟨-lo, -lo, shl 1 n, -shl 1 n⟩).negRetHi := by exact_mod_cast h
      exact ⟨(powLoop n e e ⟨-lo, -lo, shl 1 n, -shl 1 n⟩).retLo, by
        rw [eq_div_iff hp.ne']
        linarith⟩
    · intro h
      have hk : ∃ k : ℤ, (((-lo : ℤ) : ℝ) / 2 ^ n) ^ e = k / 2 ^ n := by
        by_contra hk
        exact h ⟨hodd, trivial, hneg, hk⟩
      obtain ⟨c1, c2⟩ := b3 hk
      have c3 := c2 rfl
      have : -((powLoop n e e ⟨-lo, -lo, shl 1 n, -shl 1 n⟩).retLo : ℝ) ≤
          (powLoop n e e ⟨-lo, -lo, shl 1 n, -shl 1 n⟩).negRetHi := by rw [c1, c3]
      exact_mod_cast this
  refine iff_of_true ?_ (fun h => hpt ⟨h.2.1, h.2.2.1⟩)
  by_cases hmix : lo < 0 ∧ 0 < hi
  · obtain ⟨s1, s2⟩ := hmix
    have hnn : ∀ m bh : ℤ, 0 ≤ m → m ≤ bh → 0 ≤ (powLoop n e e ⟨m, bh, shl 1 n, -shl 1 n⟩).retLo ∧
        (powLoop n e e ⟨m, bh, shl 1 n, -shl 1 n⟩).negRetHi ≤ 0 := by
      intro m bh h0 h1
      refine ⟨powLoop_retLo_nonneg _ _ _ _ (by simp [shl]) h0, ?_⟩
      have b2 := (powLoop_bounds n e (by omega) m bh h0 h1).2.1
      have : (0 : ℝ) ≤ bh := by exact_mod_cast h0.trans h1
      have : (0 : ℝ) ≤ ((bh : ℝ) / 2 ^ n) ^ e * 2 ^ n := by positivity
      have h3 : ((powLoop n e e ⟨m, bh, shl 1 n, -shl 1 n⟩).negRetHi : ℝ) ≤ 0 := by linarith
      exact_mod_cast h3
    rw [powPos_odd_mixed lo hi n e s1 s2 hm]
    unfold Ordered
    split
    · next h =>
      obtain ⟨g1, g2⟩ := hnn hi (-lo) s2.le h.le
      simp only; omega
    · next h =>
      obtain ⟨g1, g2⟩ := hnn (-lo) hi (by omega) (by omega)
      simp only; omega
  · have := ((C09_pow_partial ⟨lo, hi, n⟩ e).2 _ hpow _ (contains_lower (by exact ho)) (by
      simp only
      by_cases h0 : 0 ≤ lo
      · exact Or.inr (Or.inr (Or.inr (Or.inl h0)))
      · refine Or.inr (Or.inr (Or.inr (Or.inr (Or.inl ⟨by omega, by omega, by omega⟩))))
        )).2
    exact this.ordered

end DFI

/-- C78: exactly when a power has its ends in the wrong order: the exponent is odd, at least 3 without its sign, the
interval, or for a negative exponent its reciprocal, is one negative number, and the power of that number is not a
multiple of the unit. -/
theorem C78_pow_ordered_iff (a r : DFI) (e : ℤ) (ho : a.Ordered) (h : a.pow e = some r) :
    r.Ordered ↔ ¬ (Odd e ∧ 3 ≤ |e| ∧ ∃ b, (if e < 0 then a.checkedRecip else some a) = some b ∧
      b.lo = b.hi ∧ b.hi < 0 ∧ ¬ ∃ k : ℤ, ((b.hi : ℝ) / 2 ^ b.log2Denom) ^ |e| = k / 2 ^ b.log2Denom) := by
  unfold DFI.pow at h
  have habs : (e.natAbs : ℤ) = |e| := Int.natCast_natAbs e
  have hodd : Odd e.natAbs ↔ Odd e := Int.natAbs_odd
  by_cases h0 : e = 0
  · rw [if_pos h0] at h
    cases h
    refine iff_of_true le_rfl (fun h => ?_)
    rw [h0] at h
    simp at h
  rw [if_neg h0] at h
  by_cases h1 : e = 1
  · rw [if_pos h1] at h
    cases h
    refine iff_of_true ho (fun h => ?_)
    rw [h1] at h
    simp at h
  rw [if_neg h1] at h
  have key : ∀ b : DFI, b.Ordered → e ≠ -1 → ((b.powPos e.natAbs).Ordered ↔
      ¬ (Odd e ∧ 3 ≤ |e| ∧ b.lo = b.hi ∧ b.hi < 0 ∧
        ¬ ∃ k : ℤ, ((b.hi : ℝ) / 2 ^ b.log2Denom) ^ |e| = k / 2 ^ b.log2Denom)) := by
    intro b hb hne
    rw [DFI.powPos_ordered_iff b e.natAbs (by omega) hb, hodd, ← habs]
    simp only [zpow_natCast]
    constructor
    · rintro h ⟨g1, -, g3⟩; exact h ⟨g1, g3⟩
    · rintro h ⟨g1, g3⟩
      refine h ⟨g1, ?_, g3⟩
      obtain ⟨j, hj⟩ := g1
      omega
  by_cases hneg : e < 0
  · rw [if_pos hneg] at h ⊢
    cases hr : a.checkedRecip with
    | none => rw [hr] at h; cases h
    | some s =>
      rw [hr] at h
      have hs := (DFI.checkedRecip_spec hr ho).1
      change (if e = -1 then some s else some (s.powPos e.natAbs)) = some r at h
      by_cases hm : e = -1
      · rw [if_pos hm] at h
        cases h
        refine iff_of_true hs (fun h => ?_)
        rw [hm] at h
        norm_num at h
      · rw [if_neg hm] at h
        cases h
        rw [key s hs hm]
        simp
  · rw [if_neg hneg] at h ⊢
    cases h
    rw [key a ho (by omega)]
    simp

namespace IvInstr

theorem NoNegativePoint.pow {st : ℕ → DFI} {t s : ℕ} {e : ℤ} (h : NoNegativePoint st (.pow t s e)) {r : DFI}
    (ho : (st s).Ordered) (hr : (st s).pow e = some r) : r.Ordered := by
  rw [C78_pow_ordered_iff _ _ _ ho hr]
  exact h

/-- the result of every call has its ends in order -/
theorem call_ordered {ln2 sqrt2 : ℕ → DFI} (hl : IsLn2 ln2) (hs : IsSqrt2 sqrt2) {st : ℕ → DFI}
    (ho : ∀ n, (st n).Ordered) {i : IvInstr} (hi : i.NoNegativePoint st) {c : DFI}
    (h : i.call ln2 sqrt2 st = some c) : c.Ordered := by
  have hc : ∀ n, (st n).Contains (((st n).lo : ℝ) / 2 ^ (st n).log2Denom) := fun n => contains_lower (ho n)
  cases i <;> simp only [call, Option.some.injEq] at h
  case new t lo hi n => unfold DFI.new at h; split at h <;> cases h; assumption
  case fromRatioRange t lb ub n =>
    have h1 : lb ≤ ub := by
      by_contra hn
      rw [(C01_from_ratio_range lb ub n).1.mpr (not_le.mp hn)] at h
      cases h
    exact (((C01_from_ratio_range lb ub n).2 c h).2.1 lb le_rfl (by exact_mod_cast h1)).ordered
  case fromRatio t q n => subst h; exact (contains_fromRatio q n).ordered
  case fromInt => subst h; exact le_rfl
  case fromIntRange t lb ub n =>
    have h1 : lb ≤ ub := by
      by_contra hn
      rw [(C01_from_int_range lb ub n).1.mpr (not_le.mp hn)] at h
      cases h
    exact ((((C01_from_int_range lb ub n).2 c h).2 lb).mpr ⟨le_rfl, by exact_mod_cast h1⟩).ordered
  case fromDyadic => subst h; exact le_rfl
  case lnTwo t n => subst h; exact (hl n).2.1.ordered
  case sqrtTwo t n => subst h; exact (hs n).2.1.ordered
  case setZero => subst h; exact le_rfl
  case setOne => subst h; exact le_rfl
  case setNegativeOne => subst h; exact le_rfl
  case setToLower => subst h; exact le_rfl
  case setToUpper => subst h; exact le_rfl
  case setLower => unfold setLowerBoundNumer at h; split at h <;> cases h; assumption
  case setUpper => unfold setUpperBoundNumer at h; split at h <;> cases h; assumption
  case setLowerZero =>
    unfold setLowerBoundToZero at h; split at h <;> cases h
    unfold DFI.Ordered; simp only; omega
  case setUpperZero =>
    unfold setUpperBoundToZero at h; split at h <;> cases h
    unfold DFI.Ordered; simp only; omega
  case convert t s n => subst h; exact ((C01_convert _ n).2.1 _ (hc s)).ordered
  case copy t s => subst h; exact ho s
  case neg t s => subst h; exact ((C02_neg _ _).mp (hc s)).ordered
  case abs t s => subst h; exact ((C10_abs _ (ho s)).2 _ (hc s)).ordered
  case floor t s n => subst h; exact (C10_floor_ceil _ n _ (hc s)).1.ordered
  case ceil t s n => subst h; exact (C10_floor_ceil _ n _ (hc s)).2.ordered
  case square t s => subst h; exact ((C03_square _).2.2 _ (hc s)).ordered
  case sqrt t s => exact (((C05_sqrt _ (ho s)).2 _ h).2.1 _ (hc s)).ordered
  case recip t s => exact (checkedRecip_spec h (ho s)).1
  case log t s =>
    have hp : 0 < (st s).lo := by
      by_contra hn
      rw [C07_log_not_positive ln2 _ (not_lt.mp hn)] at h
      cases h
    obtain ⟨r, h1, -, h3⟩ := C07_log ln2 hl _ (ho s) hp
    rw [h] at h1
    cases h1
    exact (h3 _ (hc s)).ordered
  case exp t s =>
    obtain ⟨h1, h2⟩ := C08_exp_partial ln2 hl _ _ h
    obtain ⟨h3, -, h4⟩ := h2 _ (hc s)
    have h5 := h3.trans h4
    rw [div_le_div_iff_of_pos_right (by positivity)] at h5
    unfold DFI.Ordered
    have h6 : (c.lo : ℝ) < c.hi + 1 := by norm_num at h5 ⊢; linarith
    have : c.lo < c.hi + 1 := by exact_mod_cast h6
    omega
  case pow t s e => exact hi.pow (ho s) h
  case add t s u => subst h; exact ((C02_add _ _).2 _ _ (hc s) (hc u)).ordered
  case sub t s u => subst h; exact ((C02_sub _ _).2 _ _ (hc s) (hc u)).ordered
  case mul t s u => subst h; exact ((C03_mul _ _).2 _ _ (hc s) (hc u)).ordered
  case div t s u => exact ((C04_div _ _).2 _ h _ _ (hc s) (hc u)).ordered
  case union t s u => subst h; exact ((C10_union _ _ (ho s) (ho u)).1 _ (Or.inl (hc s))).ordered
  case agm t s u =>
    have h0 : 0 ≤ (st s).lo ∧ 0 ≤ (st u).lo := by
      by_contra hn
      rw [C11_agm_negative _ _ (by omega)] at h
      cases h
    obtain ⟨r, h1, h2⟩ := C11_agm _ _ (ho s) (ho u) h0.1 h0.2
    rw [h] at h1
    cases h1
    have p : ∀ n, 0 ≤ (st n).lo → (0 : ℝ) ≤ ((st n).lo : ℝ) / 2 ^ (st n).log2Denom := fun n hn => by
      have : (0 : ℝ) ≤ (st n).lo := by exact_mod_cast hn
      positivity
    obtain ⟨m, hm⟩ := exists_isAGM (p s h0.1) (p u h0.2)
    exact (h2 _ _ m (hc s) (hc u) hm).ordered
  case addInt t s k => subst h; exact (C02_scalar _ _ (hc s) k 0).1.ordered
  case subInt t s k => subst h; exact (C02_scalar _ _ (hc s) k 0).2.1.ordered
  case mulInt t s k => subst h; exact (C03_mul_scalar _ _ (hc s) k 0).1.ordered
  case divInt t s k => exact ((C04_div_scalar _ k 0).2.2.1 _ h _ (hc s)).ordered
  case addRatio t s q => subst h; exact (C02_scalar _ _ (hc s) 0 q).2.2.1.ordered
  case subRatio t s q => subst h; exact (C02_scalar _ _ (hc s) 0 q).2.2.2.1.ordered
  case mulRatio t s q => subst h; exact (C03_mul_scalar _ _ (hc s) 0 q).2.1.ordered
  case divRatio t s q => exact ((C04_div_scalar _ 0 q).2.2.2 _ h _ (hc s)).ordered

theorem Encloses.pow {st : ℕ → DFI} {t s : ℕ} {e : ℤ} (h : Encloses st (.pow t s e)) {r : DFI}
    (hr : (st s).pow e = some r) {x : ℝ} (hx : (st s).Contains x) : r.Contains (x ^ e) := by
  obtain ⟨h1, h2⟩ := h
  by_cases he : 0 ≤ e
  · obtain ⟨n, rfl⟩ := Int.eq_ofNat_of_zero_le he
    obtain ⟨r', e1, -, e2⟩ := C09_pow_exact_iff (st s) n hx.ordered
    rw [hr] at e1
    cases e1
    rw [zpow_natCast]
    refine e2.mpr ?_ x hx
    rintro ⟨g1, g2, g3, g4⟩
    exact h1 ⟨by exact_mod_cast g1, by exact_mod_cast g2, g3, by simpa only [zpow_natCast] using g4⟩
  · obtain ⟨n, hn⟩ : ∃ n : ℕ, e = -n := ⟨e.natAbs, by omega⟩
    subst hn
    have h0 : ¬ (st s).Contains 0 := fun hc => by
      rw [(C09_pow_partial (st s) (-n)).1.mpr ⟨by omega, hc⟩] at hr
      cases hr
    obtain ⟨r', e1, -, e2⟩ := C09_pow_negative_exact_iff (st s) n (by omega) hx.ordered h0
    rw [hr] at e1
    cases e1
    refine e2.mpr ?_ x hx
    rintro ⟨g1, g2, j, g3, g4, g5, g6⟩
    refine h2 ⟨by simpa using g1, by omega, j, g3, g4, g5, ?_⟩
    rw [abs_neg, Nat.abs_cast]
    exact_mod_cast g6

/-- the result of every call holds the value -/
theorem call_contains {ln2 sqrt2 : ℕ → DFI} (hl : IsLn2 ln2) (hs : IsSqrt2 sqrt2) {st : ℕ → DFI} {v : ℕ → ℝ}
    (hv : ∀ n, (st n).Contains (v n)) {i : IvInstr} (hi : i.Encloses st) {c : DFI}
    (h : i.call ln2 sqrt2 st = some c) {y : ℝ} (hy : i.Value st v y) : c.Contains y := by
  have ho : ∀ n, (st n).Ordered := fun n => (hv n).ordered
  have hcut : ∀ (t : ℕ) (k : ℤ), (0 : ℝ) = ((0 : ℤ) : ℝ) / 2 ^ (st t).log2Denom := fun _ _ => by simp
  cases i <;> simp only [call, Option.some.injEq] at h <;> simp only [Value] at hy
  case new t lo hi n => unfold DFI.new at h; split at h <;> cases h; exact hy
  case fromRatioRange t lb ub n => exact ((C01_from_ratio_range lb ub n).2 c h).2.1 y hy.1 hy.2
  case fromRatio t q n => subst h hy; exact contains_fromRatio q n
  case fromInt t k n => subst h hy; exact ((C01_exact_constants k n _).1).mpr rfl
  case fromIntRange t lb ub n => exact (((C01_from_int_range lb ub n).2 c h).2 y).mpr hy
  case fromDyadic => subst h hy; exact ⟨le_rfl, le_rfl⟩
  case lnTwo t n => subst h hy; exact (hl n).2.1
  case sqrtTwo t n => subst h hy; exact (hs n).2.1
  case setZero t => subst h; exact (((C01_exact_constants 0 0 y).2.2.2.2 _).1).mpr hy
  case setOne t => subst h; exact (((C01_exact_constants 0 0 y).2.2.2.2 _).2.1).mpr hy
  case setNegativeOne t => subst h; exact (((C01_exact_constants 0 0 y).2.2.2.2 _).2.2).mpr hy
  case setToLower t => subst h; exact ((C10_set_to_bound _ y).2.2.1).mpr hy
  case setToUpper t => subst h; exact ((C10_set_to_bound _ y).2.2.2).mpr hy
  case setLower => unfold setLowerBoundNumer at h; split at h <;> cases h; exact hy
  case setUpper => unfold setUpperBoundNumer at h; split at h <;> cases h; exact hy
  case setLowerZero t => exact (((C10_set_bound_to_zero _).2.2.1 _ h).2 y).mpr hy
  case setUpperZero t => exact (((C10_set_bound_to_zero _).2.2.2 _ h).2 y).mpr hy
  case convert t s n => subst h hy; exact (C01_convert _ n).2.1 _ (hv s)
  case copy t s => subst h hy; exact hv s
  case neg t s => subst h hy; exact (C02_neg _ _).mp (hv s)
  case abs t s => subst h hy; exact (C10_abs _ (ho s)).2 _ (hv s)
  case floor t s n => subst h hy; exact (C10_floor_ceil _ n _ (hv s)).1
  case ceil t s n => subst h hy; exact (C10_floor_ceil _ n _ (hv s)).2
  case square t s => subst h hy; exact (C03_square _).2.2 _ (hv s)
  case sqrt t s => subst hy; exact ((C05_sqrt _ (ho s)).2 _ h).2.1 _ (hv s)
  case recip t s => subst hy; exact ((C04_recip _).2 _ h).2 _ (hv s)
  case log t s =>
    have hp : 0 < (st s).lo := by
      by_contra hn
      rw [C07_log_not_positive ln2 _ (not_lt.mp hn)] at h
      cases h
    obtain ⟨r, h1, -, h3⟩ := C07_log ln2 hl _ (ho s) hp
    rw [h] at h1
    cases h1
    subst hy
    exact h3 _ (hv s)
  case exp t s => exact hi.elim
  case pow t s e => subst hy; exact hi.pow h (hv s)
  case add t s u => subst h hy; exact (C02_add _ _).2 _ _ (hv s) (hv u)
  case sub t s u => subst h hy; exact (C02_sub _ _).2 _ _ (hv s) (hv u)
  case mul t s u => subst h hy; exact (C03_mul _ _).2 _ _ (hv s) (hv u)
  case div t s u => subst hy; exact (C04_div _ _).2 _ h _ _ (hv s) (hv u)
  case union t s u =>
    subst h
    refine (C10_union _ _ (ho s) (ho u)).1 _ ?_
    rcases hy with rfl | rfl
    · exact Or.inl (hv s)
    · exact Or.inr (hv u)
  case agm t s u =>
    have h0 : 0 ≤ (st s).lo ∧ 0 ≤ (st u).lo := by
      by_contra hn
      rw [C11_agm_negative _ _ (by omega)] at h
      cases h
    obtain ⟨r, h1, h2⟩ := C11_agm _ _ (ho s) (ho u) h0.1 h0.2
    rw [h] at h1
    cases h1
    exact h2 _ _ y (hv s) (hv u) hy
  case addInt t s k => subst h hy; exact (C02_scalar _ _ (hv s) k 0).1
  case subInt t s k => subst h hy; exact (C02_scalar _ _ (hv s) k 0).2.1
  case mulInt t s k => subst h hy; exact (C03_mul_scalar _ _ (hv s) k 0).1
  case divInt t s k => subst hy; exact (C04_div_scalar _ k 0).2.2.1 _ h _ (hv s)
  case addRatio t s q => subst h hy; exact (C02_scalar _ _ (hv s) 0 q).2.2.1
  case subRatio t s q => subst h hy; exact (C02_scalar _ _ (hv s) 0 q).2.2.2.1
  case mulRatio t s q => subst h hy; exact (C03_mul_scalar _ _ (hv s) 0 q).2.1
  case divRatio t s q => subst hy; exact (C04_div_scalar _ 0 q).2.2.2 _ h _ (hv s)

theorem ratio_log2Denom (a : DFI) (q : ℚ) :
    (a.addRatio q).log2Denom = a.log2Denom ∧ (a.subRatio q).log2Denom = a.log2Denom := by
  unfold DFI.addRatio DFI.subRatio DFI.add DFI.sub
  rw [doOp_log2Denom, doOp_log2Denom]
  exact ⟨max_self _, max_self _⟩

theorem agmLoop_log2Denom {n fuel : ℕ} {result am gm next c : DFI} (h1 : result.log2Denom = n)
    (h2 : am.log2Denom = n) (h3 : gm.log2Denom = n) (h4 : next.log2Denom = n)
    (h : agmLoop fuel result am gm next = some c) : c.log2Denom = n := by
  induction fuel generalizing result am gm next with
  | zero => cases h
  | succ fuel ih =>
    unfold agmLoop at h
    split at h
    · cases e1 : (am.add gm).divInt 2 with
      | none => rw [e1] at h; cases h
      | some a' =>
        cases e2 : (am.mul gm).sqrt with
        | none => rw [e1, e2] at h; cases h
        | some g' =>
          rw [e1, e2] at h
          have f1 : a'.log2Denom = n := by
            rw [divInt_log2Denom e1, (C02_add _ _).1, h2, h3, max_self]
          have f2 : g'.log2Denom = n := by
            obtain ⟨e, -⟩ := sqrt_ends e2
            rw [e, (C03_mul _ _).1, h2, h3, max_self]
          exact ih h4 f1 f2 (by unfold DFI.union; rw [doOp_log2Denom, f1, f2, max_self]) h
    · cases h; exact h1

/-- the precision of every result is the one the arguments have asked for -/
theorem call_precision {ln2 sqrt2 : ℕ → DFI} (hl : IsLn2 ln2) (hs : IsSqrt2 sqrt2) {st : ℕ → DFI} {i : IvInstr}
    {c : DFI} (h : i.call ln2 sqrt2 st = some c) : c.log2Denom = i.precision fun n => (st n).log2Denom := by
  cases i <;> simp only [call, Option.some.injEq] at h <;> simp only [precision]
  case new t lo hi n => unfold DFI.new at h; split at h <;> cases h; rfl
  case fromRatioRange t lb ub n => exact ((C01_from_ratio_range lb ub n).2 c h).1
  case fromIntRange t lb ub n => exact ((C01_from_int_range lb ub n).2 c h).1
  case lnTwo t n => subst h; exact (hl n).1
  case sqrtTwo t n => subst h; exact (hs n).1
  case setLower => unfold setLowerBoundNumer at h; split at h <;> cases h; rfl
  case setUpper => unfold setUpperBoundNumer at h; split at h <;> cases h; rfl
  case setLowerZero t => exact ((C10_set_bound_to_zero _).2.2.1 _ h).1
  case setUpperZero t => exact ((C10_set_bound_to_zero _).2.2.2 _ h).1
  case abs t s => subst h; unfold DFI.abs; split_ifs <;> rfl
  case sqrt t s => obtain ⟨e, -⟩ := sqrt_ends h; exact e
  case recip t s => exact ((C04_recip _).2 _ h).1
  case log t s =>
    have hp : 0 < (st s).lo ∧ (st s).Ordered := by
      unfold DFI.log at h
      split at h
      · cases h
      split at h
      · cases h
      unfold DFI.Ordered
      omega
    obtain ⟨r, h1, h2, -⟩ := C07_log ln2 hl _ hp.2 hp.1
    rw [h] at h1
    cases h1
    exact h2
  case exp t s => exact (C08_exp_partial ln2 hl _ _ h).1
  case pow t s e => exact pow_log2Denom h
  case add t s u => subst h; exact (C02_add _ _).1
  case sub t s u => subst h; exact (C02_sub _ _).1
  case mul t s u => subst h; exact (C03_mul _ _).1
  case div t s u =>
    unfold checkedDiv at h
    cases e : (st u).checkedRecip with
    | none => rw [e] at h; cases h
    | some r => rw [e] at h; cases h; rw [(C03_mul _ _).1, ((C04_recip _).2 _ e).1]
  case union t s u => subst h; exact doOp_log2Denom _ _ _
  case agm t s u =>
    unfold DFI.agm at h
    split at h
    · cases h
    cases e1 : ((st s).add (st u)).divInt 2 with
    | none => rw [e1] at h; cases h
    | some a' =>
      cases e2 : ((st s).mul (st u)).sqrt with
      | none => rw [e1, e2] at h; cases h
      | some g' =>
        rw [e1, e2] at h
        have f1 : a'.log2Denom = max (st s).log2Denom (st u).log2Denom := by
          rw [divInt_log2Denom e1, (C02_add _ _).1]
        have f2 : g'.log2Denom = max (st s).log2Denom (st u).log2Denom := by
          obtain ⟨e, -⟩ := sqrt_ends e2
          rw [e, (C03_mul _ _).1]
        exact agmLoop_log2Denom (doOp_log2Denom _ _ _) f1 f2
          (by unfold DFI.union; rw [doOp_log2Denom, f1, f2, max_self]) h
  case divInt t s k => exact divInt_log2Denom h
  case addRatio t s q => subst h; exact (ratio_log2Denom _ q).1
  case subRatio t s q => subst h; exact (ratio_log2Denom _ q).2
  case divRatio t s q => unfold DFI.divRatio at h; split at h <;> cases h; rfl
  all_goals subst h; rfl

end IvInstr

/-- C78: after any history of calls, of any length, all intervals have their ends in order, if no odd power of at
least 3 was taken of one negative number, other than those that are multiples of the unit. -/
theorem C78_ordered (p : List IvInstr) (st st' : ℕ → DFI) (ho : ∀ n, (st n).Ordered)
    (h : IvRun IvInstr.NoNegativePoint p st st') : ∀ n, (st' n).Ordered := by
  induction p generalizing st with
  | nil => cases h; exact ho
  | cons i p ih =>
    obtain ⟨h1, m, ⟨ln2, sqrt2, c, hl, hs, hc, rfl⟩, h2⟩ := h
    refine ih _ (fun n => ?_) h2
    by_cases hn : n = i.target
    · subst hn
      rw [Function.update_self]
      exact IvInstr.call_ordered hl hs ho h1 hc
    · rw [Function.update_of_ne hn]
      exact ho n

/-- C78: the restriction is exact: a call on intervals with their ends in order leaves all ends in order if and only if
it is not one of the excepted powers. -/
theorem C78_ordered_iff (i : IvInstr) (st st' : ℕ → DFI) (ho : ∀ n, (st n).Ordered) (h : i.Step st st') :
    (∀ n, (st' n).Ordered) ↔ i.NoNegativePoint st := by
  obtain ⟨ln2, sqrt2, c, hl, hs, hc, rfl⟩ := h
  constructor
  · intro h
    have h1 := h i.target
    rw [Function.update_self] at h1
    cases i
    case pow t s e => exact (C78_pow_ordered_iff _ _ _ (ho s) hc).mp h1
    all_goals trivial
  · intro h n
    by_cases hn : n = i.target
    · subst hn
      rw [Function.update_self]
      exact IvInstr.call_ordered hl hs ho h hc
    · rw [Function.update_of_ne hn]
      exact ho n

/-- C78: after any history of calls the precisions of all intervals are those that the calls have asked for: they do
not depend on the numbers, nor on what the caches held. -/
theorem C78_precisions (p : List IvInstr) (st st' : ℕ → DFI) (h : IvRun (fun _ _ => True) p st st') :
    ∀ n, (st' n).log2Denom = ivPrecisions p (fun n => (st n).log2Denom) n := by
  induction p generalizing st with
  | nil => cases h; exact fun _ => rfl
  | cons i p ih =>
    obtain ⟨-, m, ⟨ln2, sqrt2, c, hl, hs, hc, rfl⟩, h2⟩ := h
    have e : (fun n => (Function.update st i.target c n).log2Denom) =
        Function.update (fun n => (st n).log2Denom) i.target (i.precision fun n => (st n).log2Denom) := by
      funext n
      by_cases hn : n = i.target
      · subst hn
        rw [Function.update_self, Function.update_self, IvInstr.call_precision hl hs hc]
      · rw [Function.update_of_ne hn, Function.update_of_ne hn]
    intro n
    rw [ih _ h2 n, e]
    rfl

/-- C78: after any history of calls every variable's interval holds the real number that the variable stands for, if
no exponential was taken, and no odd power of at least 3 of an interval with members of both signs or of one negative
number, unless the power of the end nearer to zero is a multiple of the unit. For powers this is exact, see
`C09_pow_exact_iff` and `C09_pow_negative_exact_iff`. -/
theorem C78_encloses (p : List IvInstr) (st st' : ℕ → DFI) (v v' : ℕ → ℝ) (hv : ∀ n, (st n).Contains (v n))
    (h : IvRunValues IvInstr.Encloses p st v st' v') : ∀ n, (st' n).Contains (v' n) := by
  induction p generalizing st v with
  | nil => obtain ⟨rfl, rfl⟩ := h; exact hv
  | cons i p ih =>
    obtain ⟨h1, m, y, ⟨ln2, sqrt2, c, hl, hs, hc, rfl⟩, hy, h2⟩ := h
    refine ih _ _ (fun n => ?_) h2
    by_cases hn : n = i.target
    · subst hn
      rw [Function.update_self, Function.update_self]
      exact IvInstr.call_contains hl hs hv h1 hc hy
    · rw [Function.update_of_ne hn, Function.update_of_ne hn]
      exact hv n

/-- there are such providers of the two constants -/
theorem exists_isSqrt2 : ∃ sqrt2, IsSqrt2 sqrt2 := by
  have h : ∀ n, ∃ r : DFI, r.log2Denom = n ∧ r.Contains √2 ∧ r.ulps ≤ 8 := fun n => by
    obtain ⟨r, -, h2, h3, h4⟩ := sqrt2_entry n n le_rfl
    exact ⟨r.convertLog2Denom n, rfl, h3, by omega⟩
  choose f hf using h
  exact ⟨f, hf⟩

/-- C78 is false without the restriction: `from_ratio(-3/2, 1).pow(3)` has its lower end above its upper end. -/
theorem C78_inverted_false : ∃ st', IvRun (fun _ _ => True)
    [.fromRatio 0 (-3 / 2) 1, .pow 1 0 3] (fun _ => ⟨0, 0, 0⟩) st' ∧ (st' 1).hi < (st' 1).lo := by
  obtain ⟨sqrt2, hs⟩ := exists_isSqrt2
  refine ⟨_, ⟨trivial, _, ⟨ln2Direct, sqrt2, _, C06_ln2_direct, hs, rfl, rfl⟩, trivial, _,
    ⟨ln2Direct, sqrt2, ⟨-6, -8, 1⟩, C06_ln2_direct, hs, ?_, rfl⟩, rfl⟩, ?_⟩
  · have : DFI.fromRatio (-3 / 2) 1 = ⟨-3, -3, 1⟩ := by
      unfold DFI.fromRatio
      norm_num [shl]
    simp only [IvInstr.call, IvInstr.target, Function.update_self, this]
    decide +kernel
  · simp [IvInstr.target]

/-- a history that mixes setters and arithmetic; its last two steps make the exact value of a bound out of a
quotient -/
example : ∃ st' v', IvRunValues IvInstr.Encloses
    [.new 0 5 8 4, .square 1 0, .sub 2 0 1, .recip 3 2, .setToLower 3, .pow 2 3 (-3)] (fun _ => ⟨0, 0, 0⟩) (fun _ => 0) st'
      v' ∧ v' 3 = 9 / 4 ∧ st' 3 = ⟨36, 36, 4⟩ ∧ v' 2 = 64 / 729 ∧ st' 2 = ⟨1, 2, 4⟩ := by
  obtain ⟨sqrt2, hs⟩ := exists_isSqrt2
  have step : ∀ (i : IvInstr) (st : ℕ → DFI) (c : DFI), i.call ln2Direct sqrt2 st = some c →
      i.Step st (Function.update st i.target c) := fun i st c h => ⟨ln2Direct, sqrt2, c, C06_ln2_direct, hs, h, rfl⟩
  refine ⟨_, _, ⟨trivial, _, 1 / 3, step _ _ ⟨5, 8, 4⟩ (by simp [IvInstr.call, DFI.new]), ?_, trivial, _, 1 / 9,
    step _ _ ⟨1, 4, 4⟩ ?_, ?_, trivial, _, 2 / 9, step _ _ ⟨1, 7, 4⟩ ?_, ?_, trivial, _, 9 / 2,
    step _ _ ⟨36, 256, 4⟩ ?_, ?_, trivial, _, 9 / 4, step _ _ ⟨36, 36, 4⟩ ?_, ?_, ?_, _, 64 / 729,
    step _ _ ⟨1, 2, 4⟩ ?_, ?_, rfl, rfl⟩, ?_⟩
  · norm_num [IvInstr.Value]
  · simp only [IvInstr.call, IvInstr.target, Function.update_self]; decide +kernel
  · norm_num [IvInstr.Value, IvInstr.target, Function.update]
  · simp only [IvInstr.call, IvInstr.target, Function.update]; decide +kernel
  · norm_num [IvInstr.Value, IvInstr.target, Function.update]
  · simp only [IvInstr.call, IvInstr.target, Function.update]; decide +kernel
  · norm_num [IvInstr.Value, IvInstr.target, Function.update]
  · simp only [IvInstr.call, IvInstr.target, Function.update]; decide +kernel
  · norm_num [IvInstr.Value, IvInstr.target, Function.update]
  · simp only [IvInstr.Encloses, IvInstr.target, Function.update]
    refine ⟨by omega, ?_⟩
    rintro ⟨-, -, j, h, -⟩
    have : (0 : ℤ) < 2 ^ j := by positivity
    simp at h
    omega
  · simp only [IvInstr.call, IvInstr.target, Function.update]; decide +kernel
  · norm_num [IvInstr.Value, IvInstr.target, Function.update]
  · simp [IvInstr.target, Function.update]

end Algebraics
