import Verif.Lemmas.Log
import Verif.Lemmas.Exp
import Verif.Lemmas.Traits

/-!
How large the upper end of `log` can be (`src/interval_arithmetic.rs:593-684`), for arguments with integer
ends: at most two more than the integer part of the base-2 logarithm.
-/

namespace Algebraics
namespace DFI

/-- the upper end of the sum in `log_core` -/
theorem logCoreLoop_hi (w : Nat) (sq : DFI) (hsqd : sq.log2Denom = w) (hsql : 4 * 2 ^ w ≤ sq.lo)
    (hsqo : sq.lo ≤ sq.hi) : ∀ (count i : Nat) (ret power r : DFI), ret.log2Denom = w →
    power.log2Denom = w → power.lo ≤ power.hi → 2 * 4 ^ i * 2 ^ w ≤ power.lo →
    logCoreLoop w (shl 2 w) sq count i ret power = some r →
    r.log2Denom = w ∧ (r.hi : ℝ) ≤ ret.hi + count + 4 / 3 * 2 ^ w / 4 ^ i := by
  intro count
  induction count with
  | zero =>
    intro i ret power r h1 _ _ _ hr
    simp only [logCoreLoop, Option.some.injEq] at hr
    subst hr
    refine ⟨h1, ?_⟩
    have : (0 : ℝ) ≤ 4 / 3 * 2 ^ w / 4 ^ i := by positivity
    push_cast
    linarith
  | succ count ih =>
    intro i ret power r h1 h2 ho h5 hr
    have hpw : (0:Int) < 2 ^ w := by positivity
    have h4i : (1:Int) ≤ 4 ^ i := one_le_pow₀ (by norm_num)
    have hplo : 0 < power.lo := by nlinarith
    have hphi : 0 < power.hi := by omega
    have hk : (1:Int) ≤ ((i * 2 + 1 : Nat) : Int) := by push_cast; omega
    have hmi : power.mulInt ((i * 2 + 1 : Nat) : Int) =
        ⟨power.lo * ((i * 2 + 1 : Nat) : Int), power.hi * ((i * 2 + 1 : Nat) : Int), w⟩ := by
      unfold mulInt; rw [if_neg (by omega)]; simp [h2]
    have hd1 : power.hi * ((i * 2 + 1 : Nat) : Int) ≠ 0 := (mul_pos hphi (by omega)).ne'
    have hd2 : power.lo * ((i * 2 + 1 : Nat) : Int) ≠ 0 := (mul_pos hplo (by omega)).ne'
    unfold logCoreLoop at hr
    simp only [hmi, ratioNew, hd1, hd2, if_false, Option.bind_eq_bind, Option.bind_some,
      Option.bind_eq_some_iff] at hr
    obtain ⟨term, ht, hr⟩ := hr
    unfold fromRatioRange at ht
    split at ht
    swap
    · simp at ht
    simp only [Option.some.injEq] at ht
    subst ht
    rw [add_same (by rw [h1])] at hr
    have hnd : (power.mul sq).log2Denom = w := by
      rw [mul_same_lo (by rw [h2, hsqd])]; exact hsqd
    have hnp : 2 * 4 ^ (i + 1) * 2 ^ w ≤ (power.mul sq).lo ∧ (power.mul sq).lo ≤ (power.mul sq).hi := by
      rw [mul_same_lo (by rw [h2, hsqd])]
      obtain ⟨mn, mx, e1, e2, b1, b2, hm, -⟩ := mulOp_bounds power.lo power.hi sq.lo sq.hi sq.log2Denom
      constructor
      · rw [e1, le_shr_iff, hsqd]
        have h6 : 2 * 4 ^ i * 2 ^ w * (4 * 2 ^ w) ≤ power.lo * sq.lo :=
          mul_le_mul h5 hsql (by positivity) hplo.le
        have h7 : power.lo * sq.lo ≤ mn := by
          have s0 : 0 < sq.lo := by omega
          simp only [List.mem_cons, List.not_mem_nil, or_false] at hm
          rcases hm with rfl | rfl | rfl | rfl <;> nlinarith
        calc 2 * 4 ^ (i + 1) * 2 ^ w * 2 ^ w = 2 * 4 ^ i * 2 ^ w * (4 * 2 ^ w) := by ring
          _ ≤ mn := h6.trans h7
      · rw [e1, e2]
        have h6 : (shr mn sq.log2Denom : ℝ) * 2 ^ sq.log2Denom ≤ mn := shr_le _ _
        have h7 := le_neg_shr_neg mx sq.log2Denom
        have h8 : (mn : ℝ) ≤ mx := by exact_mod_cast b1.1.trans b2.1
        have h9 : (0:ℝ) < 2 ^ sq.log2Denom := by positivity
        have h10 := (h6.trans h8).trans h7
        have h11 := le_of_mul_le_mul_right h10 h9
        exact_mod_cast h11
    obtain ⟨r1, r2⟩ := ih (i + 1) _ _ r (by exact h1) hnd hnp.2 hnp.1 hr
    refine ⟨r1, r2.trans ?_⟩
    set th : Rat := ((shl 2 w : Int) : Rat) / ((power.lo * ((i * 2 + 1 : Nat) : Int) : Int) : Rat) with hth
    have hc : ((⌈th * 2 ^ w⌉ : Int) : ℝ) < (th : ℝ) * 2 ^ w + 1 := by
      exact_mod_cast Int.ceil_lt_add_one (th * 2 ^ w)
    have hP : (0:ℝ) < 2 ^ w := by positivity
    have hthr : (th : ℝ) ≤ 1 / 4 ^ i := by
      have e : (th : ℝ) = 2 * 2 ^ w / (power.lo * (2 * i + 1)) := by
        rw [hth, shl]; push_cast; ring
      have h6 : (2:ℝ) * 4 ^ i * 2 ^ w ≤ power.lo := by exact_mod_cast h5
      have h7 : (0:ℝ) < power.lo := by exact_mod_cast hplo
      have hi0 : (0:ℝ) ≤ i := by positivity
      rw [e, div_le_div_iff₀ (by positivity) (by positivity)]
      nlinarith
    have hmul := mul_le_mul_of_nonneg_right hthr hP.le
    push_cast
    have e2 : (4 / 3 * 2 ^ w / 4 ^ i : ℝ) = 1 / 4 ^ i * 2 ^ w + 4 / 3 * 2 ^ w / 4 ^ (i + 1) := by
      rw [pow_succ]; field_simp; ring
    rw [e2]
    linarith

/-- the upper end of `log_core`, at the precision that `log` uses for integer ends -/
theorem logCore_hi (a r : DFI) (hd : a.log2Denom = 16) (h2 : 2 * 2 ^ 16 ≤ a.lo) (hr : a.logCore = some r) :
    r.log2Denom = 16 ∧ r.hi ≤ 87384 := by
  unfold logCore at hr
  by_cases ho : a.hi < a.lo
  · simp [ho] at hr
  rw [if_neg ho, guardBits_eq, hd, show 16 + 10 + Nat.log 2 (16 + 1) = 30 by decide +kernel] at hr
  simp only [Option.bind_eq_bind, Option.bind_some, Option.pure_def] at hr
  by_cases hs : (a.convertLog2Denom 30).lo < shl 2 30
  · simp [hs] at hr
  rw [if_neg hs] at hr
  simp only [Option.bind_eq_some_iff, Option.some.injEq] at hr
  obtain ⟨s, hs, hr⟩ := hr
  have hpd : (a.convertLog2Denom 30) = ⟨a.lo * 2 ^ 14, a.hi * 2 ^ 14, 30⟩ := by
    unfold convertLog2Denom convertLog2DenomFloor convertLog2DenomCeil shl
    rw [hd]; norm_num
  rw [hpd] at hs
  have hlo : 2 * 2 ^ 30 ≤ a.lo * 2 ^ 14 := by
    have : (2:Int) ^ 30 = 2 ^ 16 * 2 ^ 14 := by norm_num
    omega
  push Not at ho
  have hhi : a.lo * 2 ^ 14 ≤ a.hi * 2 ^ 14 := by omega
  generalize a.lo * 2 ^ 14 = A at *
  generalize a.hi * 2 ^ 14 = B at *
  have hsq : (⟨A, B, 30⟩ : DFI).square = ⟨shr (A * A) 30, -shr (-(B * B)) 30, 30⟩ := by
    unfold square containsZero
    simp only
    rw [if_neg (show ¬ A < 0 by omega), if_neg (show ¬ B < 0 by omega), if_neg (show ¬ A > B by omega)]
    simp only
    rw [if_neg]
    simp
    omega
  rw [hsq] at hs
  have q1 : 4 * 2 ^ 30 ≤ shr (A * A) 30 := by rw [le_shr_iff]; nlinarith
  have q2 : shr (A * A) 30 ≤ -shr (-(B * B)) 30 := by
    have h6 := shr_le (A * A) 30
    have h7 := le_neg_shr_neg (B * B) 30
    have h8 : ((A * A : ℤ) : ℝ) ≤ ((B * B : ℤ) : ℝ) := by exact_mod_cast (by nlinarith : A * A ≤ B * B)
    have h11 := le_of_mul_le_mul_right ((h6.trans h8).trans h7) (by positivity)
    exact_mod_cast h11
  obtain ⟨s1, s2⟩ := logCoreLoop_hi 30 _ rfl q1 q2 30 0 (zero 30) _ s rfl rfl hhi (by simpa using hlo) hs
  subst hr
  refine ⟨rfl, ?_⟩
  have hz : ((zero 30).hi : ℝ) = 0 := by simp [zero]
  rw [hz] at s2
  have s3 : s.hi ≤ 1431655796 := by
    have : (s.hi : ℝ) < 1431655797 := by refine lt_of_le_of_lt s2 ?_; norm_num
    have : s.hi < 1431655797 := by exact_mod_cast this
    omega
  unfold convertLog2Denom convertLog2DenomCeil
  dsimp only
  rw [s1, if_neg (by norm_num)]
  have h7 := neg_shr_neg_lt (s.hi + 1) (30 - 16)
  by_contra hc
  push Not at hc
  have hc' : ((87385 : ℤ) : ℝ) ≤ ((-shr (-(s.hi + 1)) (30 - 16) : ℤ) : ℝ) := by exact_mod_cast hc
  have s4 : (s.hi : ℝ) ≤ 1431655796 := by exact_mod_cast s3
  push_cast at h7 hc'
  norm_num at h7 hc'
  linarith

/-- the upper end of `log` of an interval with integer ends -/
theorem log_hi (ln2 : Nat → DFI) (hln2 : IsLn2 ln2) (a r : DFI) (hd : a.log2Denom = 0)
    (hr : a.log ln2 = some r) : r.hi ≤ (Nat.log 2 a.hi.toNat : ℤ) + 2 := by
  unfold log at hr
  by_cases hp : 0 < a.lo
  swap
  · simp [hp] at hr
  rw [if_neg (by omega)] at hr
  by_cases ho : a.hi < a.lo
  · simp [ho] at hr
  rw [if_neg ho] at hr
  simp only [Option.bind_eq_bind, Option.bind_eq_some_iff, Option.pure_def, Option.some.injEq, hd] at hr
  obtain ⟨l, hl, h, hh, hr⟩ := hr
  have hhi0 : 0 < a.hi := by omega
  have hh' : h = Nat.log 2 a.hi.toNat := by
    obtain ⟨p1, p2⟩ := (floorLog2_spec _ _).mp hh
    symm
    rw [Nat.log_eq_iff (by right; omega)]
    zify
    rw [Int.toNat_of_nonneg hhi0.le]
    exact ⟨p1, p2⟩
  obtain ⟨u1, u2⟩ := (floorLog2_spec _ _).mp hh
  obtain ⟨l1, l2⟩ := (floorLog2_spec _ _).mp hl
  have elo : ((a.lowerBound : Rat) : ℝ) = a.lo := by
    unfold lowerBound shl; rw [hd]; push_cast; norm_num
  have ehi : ((a.upperBound : Rat) : ℝ) = a.hi := by
    unfold upperBound shl; rw [hd]; push_cast; norm_num
  have u1' : (2:ℝ) ^ h ≤ a.hi := by exact_mod_cast u1
  have u2' : (a.hi:ℝ) < 2 ^ (h + 1) := by exact_mod_cast u2
  have l1' : (2:ℝ) ^ l ≤ a.lo := by exact_mod_cast l1
  have l2' : (a.lo:ℝ) < 2 ^ (l + 1) := by exact_mod_cast l2
  obtain ⟨-, L2, L3⟩ := logShift_spec a.lowerBound ((l:Int) - (0:ℕ))
    (by rw [elo, Nat.cast_zero, sub_zero, zpow_natCast]; exact l1')
    (by rw [elo, Nat.cast_zero, sub_zero]; exact_mod_cast l2')
  obtain ⟨-, U2, U3⟩ := logShift_spec a.upperBound ((h:Int) - (0:ℕ))
    (by rw [ehi, Nat.cast_zero, sub_zero, zpow_natCast]; exact u1')
    (by rw [ehi, Nat.cast_zero, sub_zero]; exact_mod_cast u2')
  have kh : (logShift a.upperBound ((h:Int) - (0:ℕ))).2 ≤ h := by
    unfold logShift
    dsimp only
    generalize (if (h:Int) - (0:ℕ) < 0 then _ else _ : Rat) = z
    by_cases hz : z < 3 / 2
    · rw [if_pos hz]; dsimp only; omega
    · rw [if_neg hz]; dsimp only; omega
  generalize logShift a.lowerBound ((l:Int) - (0:ℕ)) = pl at *
  generalize logShift a.upperBound ((h:Int) - (0:ℕ)) = ph at *
  obtain ⟨sl, kl⟩ := pl
  obtain ⟨sh, k⟩ := ph
  dsimp only at *
  obtain ⟨i, hi, cl, ecl, ch, ech, rfl⟩ := hr
  have core : ∀ s : Rat, (3 / 2 : ℝ) ≤ s → (s:ℝ) < 3 → ∀ c, (fromRatio ((s + 1) / (s - 1)) 16).logCore = some c →
      c.log2Denom = 16 ∧ c.hi ≤ 87384 := by
    intro s s1 s2 c hc
    refine logCore_hi _ c rfl ?_ hc
    have hs1 : (0:ℝ) < s - 1 := by linarith
    unfold fromRatio
    simp only
    have e : (((shl ((s + 1) / (s - 1)).num 16 : Int) : Rat) / ((s + 1) / (s - 1)).den) =
        (s + 1) / (s - 1) * 2 ^ 16 := by
      rw [shl]; push_cast; conv_rhs => rw [← Rat.num_div_den ((s + 1) / (s - 1))]
      ring
    rw [e, Int.le_floor]
    have s1' : (0:Rat) < s - 1 := by exact_mod_cast hs1
    have s2' : s < 3 := by exact_mod_cast s2
    have : (2:Rat) ≤ (s + 1) / (s - 1) := by rw [le_div_iff₀ s1']; linarith
    have h3 := mul_le_mul_of_nonneg_right this (show (0:Rat) ≤ 2 ^ 16 by positivity)
    exact_mod_cast h3
  obtain ⟨c1, c2⟩ := core sl L2 L3 cl ecl
  obtain ⟨d1, d2⟩ := core sh U2 U3 ch ech
  obtain ⟨n1, n2, n3⟩ := hln2 16
  obtain ⟨m1, m2, m3, m4⟩ := isLn2_bounds n1 n2 n3
  have mlo : 0 < (ln2 16).lo := by
    have := log_two_gt
    have : (0:ℝ) < (ln2 16).lo := by linarith
    exact_mod_cast this
  have mhi : (ln2 16).hi ≤ 46000 := by
    have := log_two_lt
    have : ((ln2 16).hi : ℝ) ≤ 46000 := by linarith
    exact_mod_cast this
  have mord : (ln2 16).lo ≤ (ln2 16).hi := n2.ordered
  unfold fromIntRange new at hi
  split at hi
  swap
  · simp at hi
  next hkk =>
  simp only [Option.map_some, Option.some.injEq] at hi
  subst hi
  have hconv : (⟨kl, k, 0⟩ : DFI).convertLog2Denom (0 + 16) = ⟨kl * 2 ^ 16, k * 2 ^ 16, 16⟩ := by
    unfold convertLog2Denom convertLog2DenomFloor convertLog2DenomCeil shl
    norm_num
  rw [hconv]
  generalize ln2 16 = L at *
  -- the product
  have hmul : ((⟨kl * 2 ^ 16, k * 2 ^ 16, 16⟩ : DFI).mul L).log2Denom = 16 ∧
      ((⟨kl * 2 ^ 16, k * 2 ^ 16, 16⟩ : DFI).mul L).hi ≤ h * 46000 := by
    rw [mul_same_lo (by rw [n1])]
    refine ⟨n1, ?_⟩
    dsimp only
    obtain ⟨mn, mx, -, e2, -, -, -, hm⟩ := mulOp_bounds (kl * 2 ^ 16) (k * 2 ^ 16) L.lo L.hi L.log2Denom
    rw [e2, n1]
    have hmx : mx ≤ h * 46000 * 2 ^ 16 := by
      simp only [List.mem_cons, List.not_mem_nil, or_false] at hm
      have hL0 : 0 ≤ L.lo := mlo.le
      have hh0 : (0:ℤ) ≤ h := by positivity
      have hx : ∀ z t : ℤ, z ≤ h → 0 ≤ t → t ≤ 46000 → z * 2 ^ 16 * t ≤ h * 46000 * 2 ^ 16 := by
        intro z t z1 t0 t1
        have a1 : z * t ≤ h * t := mul_le_mul_of_nonneg_right z1 t0
        have a2 : (h:ℤ) * t ≤ h * 46000 := mul_le_mul_of_nonneg_left t1 hh0
        nlinarith
      rcases hm with rfl | rfl | rfl | rfl <;> apply hx <;> omega
    have h7 := shr_mono (show -(h * 46000 * 2 ^ 16) ≤ -mx by omega) 16
    have h8 : shr (-((h:ℤ) * 46000 * 2 ^ 16)) 16 = -(h * 46000) := by
      unfold shr; rw [← neg_mul, Int.mul_ediv_cancel _ (by norm_num)]
    omega
  generalize (⟨kl * 2 ^ 16, k * 2 ^ 16, 16⟩ : DFI).mul L = P at *
  have hun : (cl.union ch).log2Denom = 16 ∧ (cl.union ch).hi ≤ 87384 := by
    unfold union doOp
    rw [if_pos (by omega)]
    simp only [c1, d1]
    refine ⟨trivial, ?_⟩
    simp only [shl, Nat.sub_self, pow_zero, mul_one]
    split <;> assumption
  rw [add_same (by rw [hmul.1, hun.1])]
  unfold convertLog2Denom convertLog2DenomCeil
  dsimp only
  rw [hmul.1, if_neg (by norm_num)]
  have hfin := shr_mono (show -(((h:ℤ) + 2) * 2 ^ 16) ≤ -(P.hi + (cl.union ch).hi) by
    have := hmul.2; have := hun.2; omega) (16 - 0)
  have h8 : shr (-(((h:ℤ) + 2) * 2 ^ 16)) (16 - 0) = -((h:ℤ) + 2) := by
    unfold shr; rw [← neg_mul, Int.mul_ediv_cancel _ (by norm_num)]
  rw [← hh']
  omega

end DFI
end Algebraics
