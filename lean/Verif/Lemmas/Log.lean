import Verif.Lemmas.Agm
import Verif.Lemmas.Traits
import Mathlib.Analysis.SpecialFunctions.Log.Deriv

namespace Algebraics
open Filter Topology

/-- a series with nonnegative terms dominated by the differences of a null sequence `b`: the sum is
between the partial sum and the partial sum plus `b N`. -/
theorem hasSum_between {f b : ℕ → ℝ} {S : ℝ} (h : HasSum f S) (hf : ∀ n, 0 ≤ f n)
    (hb : Tendsto b atTop (𝓝 0)) (hd : ∀ n, f n ≤ b n - b (n + 1)) (N : ℕ) :
    ∑ i ∈ Finset.range N, f i ≤ S ∧ S ≤ ∑ i ∈ Finset.range N, f i + b N := by
  refine ⟨sum_le_hasSum _ (fun i _ => hf i) h, ?_⟩
  have anti : Antitone fun N => ∑ i ∈ Finset.range N, f i + b N := by
    apply antitone_nat_of_succ_le
    intro n
    rw [Finset.sum_range_succ]
    have := hd n
    linarith
  have lim : Tendsto (fun N => ∑ i ∈ Finset.range N, f i + b N) atTop (𝓝 S) := by
    have := h.tendsto_sum_nat.add hb
    simpa using this
  exact anti.le_of_tendsto lim N

theorem ln2_series (N : ℕ) (hN : 1 ≤ N) :
    ∑ i ∈ Finset.range N, (1 / 2 : ℝ) ^ (i + 1) / (i + 1) ≤ Real.log 2 ∧
    Real.log 2 ≤ ∑ i ∈ Finset.range N, (1 / 2 : ℝ) ^ (i + 1) / (i + 1) + (1 / 2) ^ (N + 1) := by
  have h := Real.hasSum_pow_div_log_of_abs_lt_one (x := 1 / 2) (by rw [abs_of_pos] <;> norm_num)
  have e : -Real.log (1 - 1 / 2) = Real.log 2 := by
    rw [show (1 - 1 / 2 : ℝ) = 2⁻¹ by norm_num, Real.log_inv, neg_neg]
  rw [e] at h
  -- shift by one so that the terms are at most half of the powers
  obtain ⟨M, rfl⟩ : ∃ M, N = M + 1 := ⟨N - 1, by omega⟩
  have h' := (hasSum_nat_add_iff' 1).mpr h
  have hb : Tendsto (fun n : ℕ => (1 / 2 : ℝ) ^ (n + 2)) atTop (𝓝 0) := by
    have := (tendsto_pow_atTop_nhds_zero_of_lt_one (r := (1/2 : ℝ)) (by norm_num) (by norm_num))
    exact (tendsto_add_atTop_iff_nat (f := fun n => (1/2 : ℝ) ^ n) 2).mpr this
  have := hasSum_between h' (fun n => by positivity) hb (by
    intro n
    have hd : ((1:ℝ) / 2) ^ (n + 1 + 1) / ((n + 1 : ℕ) + 1 : ℝ) ≤ (1 / 2) ^ (n + 1 + 1) / 2 := by
      gcongr; push_cast; linarith [Nat.cast_nonneg (α := ℝ) n]
    refine hd.trans (le_of_eq ?_)
    ring) M
  rw [Finset.sum_range_succ']
  simp only [Finset.range_one, Finset.sum_singleton] at this
  constructor
  · linarith [this.1]
  · have := this.2
    rw [show M + 1 + 1 = M + 2 by ring]
    linarith

theorem atanh_series {y : ℝ} (hy : 2 ≤ y) (N : ℕ) :
    ∑ i ∈ Finset.range N, 2 / ((2 * i + 1) * y ^ (2 * i + 1)) ≤ Real.log ((y + 1) / (y - 1)) ∧
    Real.log ((y + 1) / (y - 1)) ≤
      ∑ i ∈ Finset.range N, 2 / ((2 * i + 1) * y ^ (2 * i + 1)) + 4 / 3 * (1 / 4) ^ N := by
  have hx : |y⁻¹| < 1 := by
    rw [abs_of_pos (by positivity)]
    exact inv_lt_one_of_one_lt₀ (by linarith)
  have h := Real.hasSum_log_sub_log_of_abs_lt_one hx
  have e : Real.log (1 + y⁻¹) - Real.log (1 - y⁻¹) = Real.log ((y + 1) / (y - 1)) := by
    have h1 : (1 - y⁻¹) = (y - 1) / y := by field_simp
    have h2 : (1 + y⁻¹) = (y + 1) / y := by field_simp
    rw [h1, h2, Real.log_div (by linarith) (by linarith), Real.log_div (by linarith) (by linarith),
      Real.log_div (by linarith) (by linarith)]
    ring
  have ef : (fun k : ℕ => (2:ℝ) * (1 / (2 * k + 1)) * y⁻¹ ^ (2 * k + 1)) =
      fun k : ℕ => 2 / ((2 * k + 1) * y ^ (2 * k + 1)) := by
    funext k
    rw [inv_pow]
    have : (2 * (k:ℝ) + 1) ≠ 0 := by positivity
    field_simp
  rw [e, ef] at h
  have hb : Tendsto (fun n : ℕ => (4 / 3 : ℝ) * (1 / 4) ^ n) atTop (𝓝 0) := by
    have := (tendsto_pow_atTop_nhds_zero_of_lt_one (r := (1/4 : ℝ)) (by norm_num) (by norm_num)).const_mul (4/3)
    simpa using this
  refine hasSum_between h (fun n => by positivity) hb ?_ N
  intro n
  have h2 : (2:ℝ) * 4 ^ n ≤ y ^ (2 * n + 1) := by
    have : (2:ℝ) ^ (2 * n + 1) ≤ y ^ (2 * n + 1) := by gcongr
    have e2 : (2:ℝ) ^ (2 * n + 1) = 2 * 4 ^ n := by rw [pow_succ, pow_mul]; norm_num; ring
    linarith
  have h3 : (1:ℝ) ≤ 2 * n + 1 := by linarith [Nat.cast_nonneg (α := ℝ) n]
  have h4 : (0:ℝ) < 4 ^ n := by positivity
  have hle : (2:ℝ) / ((2 * n + 1) * y ^ (2 * n + 1)) ≤ 2 / (1 * (2 * 4 ^ n)) := by gcongr
  refine hle.trans (le_of_eq ?_)
  rw [one_mul, pow_succ]
  have : (1 / 4 : ℝ) ^ n = 1 / 4 ^ n := by rw [div_pow, one_pow]
  rw [this]
  field_simp
  norm_num

namespace DFI

theorem add_same {a b : DFI} (h : a.log2Denom = b.log2Denom) :
    a.add b = ⟨a.lo + b.lo, a.hi + b.hi, a.log2Denom⟩ := by
  unfold add doOp; rw [if_pos (by omega)]; simp [h, shl]

theorem fromRatio_ulps (q : Rat) (n : Nat) : (fromRatio q n).ulps ≤ 1 := by
  unfold ulps fromRatio
  simp only
  have := Int.ceil_le_floor_add_one (((shl q.num n : Int) : Rat) / q.den)
  omega

theorem ln2Loop_spec (w : Nat) : ∀ (count i : Nat) (ret : DFI) (s : ℝ), ret.log2Denom = w →
    ret.Contains s → 1 ≤ i →
    (ln2Loop w count i ret).log2Denom = w ∧
    (ln2Loop w count i ret).ulps ≤ ret.ulps + count ∧
    (ln2Loop w count i ret).Contains
      (s + ∑ j ∈ Finset.range count, (1 / 2 : ℝ) ^ (i + j) / ((i + j : ℕ) : ℝ)) := by
  intro count
  induction count with
  | zero => intro i ret s h1 h2 _; simp [ln2Loop, h1, h2]
  | succ count ih =>
    intro i ret s h1 h2 hi
    unfold ln2Loop
    set q : Rat := 1 / ((shl (i : Int) i : Int) : Rat) with hq
    have hadd : ret.add (fromRatio q w) = ⟨ret.lo + (fromRatio q w).lo, ret.hi + (fromRatio q w).hi, w⟩ := by
      rw [add_same (by rw [h1]; rfl), h1]
    obtain ⟨r1, r2, r3⟩ := ih (i + 1) (ret.add (fromRatio q w)) (s + (q : ℝ)) (by rw [hadd])
      (contains_add h2 (contains_fromRatio q w)) (by omega)
    refine ⟨r1, ?_, ?_⟩
    · have : (ret.add (fromRatio q w)).ulps ≤ ret.ulps + 1 := by
        have := fromRatio_ulps q w
        rw [hadd]; unfold ulps at *; simp only; omega
      push_cast; omega
    · have e : s + (q:ℝ) + ∑ j ∈ Finset.range count, (1 / 2 : ℝ) ^ (i + 1 + j) / ((i + 1 + j : ℕ) : ℝ) =
          s + ∑ j ∈ Finset.range (count + 1), (1 / 2 : ℝ) ^ (i + j) / ((i + j : ℕ) : ℝ) := by
        rw [Finset.sum_range_succ']
        have e1 : ∀ j, i + 1 + j = i + (j + 1) := fun j => by ring
        simp only [e1, Nat.add_zero]
        have e2 : (q : ℝ) = (1 / 2) ^ i / (i : ℝ) := by
          rw [hq, shl]; push_cast; rw [div_pow, one_pow]
          have : (i : ℝ) ≠ 0 := by positivity
          field_simp
        rw [e2]; ring
      rw [e] at r3; exact r3

theorem guardBits_eq (n : Nat) : guardBits n = some (n + 10 + Nat.log 2 (n + 1)) := by
  simp [guardBits, floorLog2U, bits]

/-- width bound for a conversion to a smaller precision. -/
theorem convert_ulps_down (a : DFI) (n k : Nat) (hk : a.log2Denom = n + k) :
    (a.convertLog2Denom n).ulps * 2 ^ k < a.ulps + 2 * 2 ^ k := by
  unfold ulps convertLog2Denom
  simp only
  have h1 := lt_convertFloor a.lo a.log2Denom n
  have h2 := convertCeil_lt a.hi a.log2Denom n
  rw [hk, pow_add, div_lt_div_iff₀ (by positivity) (by positivity)] at h1 h2
  have hp : (0:ℝ) < 2 ^ n := by positivity
  have h1' : (a.lo:ℝ) < ((convertLog2DenomFloor a.lo (n + k) n : Int) + 1) * 2 ^ k := by
    rw [← mul_lt_mul_iff_left₀ hp]; linarith
  have h2' : ((convertLog2DenomCeil a.hi (n + k) n : Int) - 1 : ℝ) * 2 ^ k < a.hi := by
    rw [← mul_lt_mul_iff_left₀ hp]; linarith
  rw [hk]
  have : (((convertLog2DenomCeil a.hi (n + k) n - convertLog2DenomFloor a.lo (n + k) n) * 2 ^ k : Int) : ℝ) <
      ((a.hi - a.lo + 2 * 2 ^ k : Int) : ℝ) := by
    push_cast; linarith
  exact_mod_cast this

theorem ln2Compute_spec (n : Nat) : ∃ r, ln2Compute n = some r ∧
    r.log2Denom = n + 10 + Nat.log 2 (n + 1) ∧ r.Contains (Real.log 2) ∧
    r.ulps ≤ n + 10 + Nat.log 2 (n + 1) := by
  unfold ln2Compute
  rw [guardBits_eq]
  set w := n + 10 + Nat.log 2 (n + 1) with hw
  refine ⟨_, rfl, ?_⟩
  have hw10 : 10 ≤ w := by omega
  obtain ⟨h1, h2, h3⟩ := ln2Loop_spec w (w - 1) 1 (zero w) 0 rfl
    (by unfold Contains zero; simp) (le_refl _)
  have hser := ln2_series (w - 1) (by omega)
  have e : ∑ j ∈ Finset.range (w - 1), (1 / 2 : ℝ) ^ (1 + j) / ((1 + j : ℕ) : ℝ) =
      ∑ i ∈ Finset.range (w - 1), (1 / 2 : ℝ) ^ (i + 1) / (i + 1) := by
    apply Finset.sum_congr rfl
    intro j _
    rw [add_comm 1 j]; push_cast; rfl
  rw [zero_add, e] at h3
  rw [show w - 1 + 1 = w by omega] at hser
  refine ⟨h1, ?_, ?_⟩
  · unfold Contains at h3 ⊢
    simp only [h1] at h3 ⊢
    refine ⟨h3.1.trans hser.1, hser.2.trans ?_⟩
    push_cast
    rw [add_div]
    have : (1 / 2 : ℝ) ^ w = 1 / 2 ^ w := by rw [div_pow, one_pow]
    rw [this]; linarith [h3.2]
  · have hz : (zero w).ulps = 0 := by simp [zero, ulps]
    rw [hz] at h2
    unfold ulps at h2 ⊢; simp only
    omega

theorem sqrt2Compute_spec (n : Nat) : ∃ r, sqrt2Compute n = some r ∧
    r.log2Denom = n ∧ r.Contains (Real.sqrt 2) := by
  unfold sqrt2Compute
  have hc : (fromInt 2 n).Contains 2 := by
    unfold Contains fromInt fromDyadicFraction
    simp only [shl_cast]; push_cast
    constructor <;> (rw [mul_div_assoc, div_self (by positivity), mul_one])
  cases h : (fromInt 2 n).sqrt with
  | none =>
    rw [sqrt_eq_none_iff _ hc.ordered] at h
    exfalso
    unfold fromInt fromDyadicFraction shl at h
    simp only at h
    have : (0:Int) < 2 ^ n := by positivity
    omega
  | some r =>
    exact ⟨r, rfl, (sqrt_ends h).1, contains_sqrt hc h⟩

theorem mul_same_lo {a b : DFI} (h : a.log2Denom = b.log2Denom) :
    a.mul b = ⟨(mulOp a.lo a.hi b.lo b.hi b.log2Denom).1,
      (mulOp a.lo a.hi b.lo b.hi b.log2Denom).2, b.log2Denom⟩ := by
  unfold mul doOp; rw [if_pos (by omega)]; simp [h, shl]

theorem logCoreLoop_spec (w : Nat) (sq : DFI) {y : ℝ} (hy : 2 ≤ y) (hsq : sq.Contains (y * y))
    (hsqd : sq.log2Denom = w) (hsql : 2 ^ w ≤ sq.lo) :
    ∀ (count i : Nat) (ret power : DFI) (s : ℝ), ret.log2Denom = w → power.log2Denom = w →
    ret.Contains s → power.Contains (y ^ (2 * i + 1)) → 2 * 2 ^ w ≤ power.lo →
    ∃ r, logCoreLoop w (shl 2 w) sq count i ret power = some r ∧ r.log2Denom = w ∧
      r.Contains (s + ∑ j ∈ Finset.range count,
        2 / ((2 * ((i + j : ℕ) : ℝ) + 1) * y ^ (2 * (i + j) + 1))) := by
  intro count
  induction count with
  | zero => intro i ret power s h1 h2 h3 h4 h5; exact ⟨ret, rfl, h1, by simpa using h3⟩
  | succ count ih =>
    intro i ret power s h1 h2 h3 h4 h5
    have hpw : (0:Int) < 2 ^ w := by positivity
    have hord : power.lo ≤ power.hi := h4.ordered
    have hplo : 0 < power.lo := by omega
    have hphi : 0 < power.hi := by omega
    have hk : (0:Int) < ((i * 2 + 1 : Nat) : Int) := by positivity
    have hmi : power.mulInt ((i * 2 + 1 : Nat) : Int) =
        ⟨power.lo * ((i * 2 + 1 : Nat) : Int), power.hi * ((i * 2 + 1 : Nat) : Int), w⟩ := by
      unfold mulInt; rw [if_neg (by omega)]; simp [h2]
    have hd1 : power.hi * ((i * 2 + 1 : Nat) : Int) ≠ 0 := (mul_pos hphi hk).ne'
    have hd2 : power.lo * ((i * 2 + 1 : Nat) : Int) ≠ 0 := (mul_pos hplo hk).ne'
    set tl : Rat := ((shl 2 w : Int) : Rat) / ((power.hi * ((i * 2 + 1 : Nat) : Int) : Int) : Rat) with htl
    set th : Rat := ((shl 2 w : Int) : Rat) / ((power.lo * ((i * 2 + 1 : Nat) : Int) : Int) : Rat) with hth
    have hlo' : (0:ℝ) < power.lo := by exact_mod_cast hplo
    have hhi' : (0:ℝ) < power.hi := by exact_mod_cast hphi
    have hy0 : 0 < y := by linarith
    have hyi : (0:ℝ) < y ^ (2 * i + 1) := by positivity
    -- the term lies between the two ratios
    have hpc := (contains_iff _ _).mp h4
    rw [h2] at hpc
    set t : ℝ := 2 / ((2 * (i : ℝ) + 1) * y ^ (2 * i + 1)) with ht
    have hP : (0:ℝ) < 2 ^ w := by positivity
    have et : t = 2 * 2 ^ w / ((y ^ (2 * i + 1) * 2 ^ w) * (2 * i + 1)) := by
      rw [ht]; field_simp
    have hk' : (0:ℝ) < 2 * (i:ℝ) + 1 := by positivity
    have htl' : (tl : ℝ) = 2 * 2 ^ w / (power.hi * (2 * i + 1)) := by
      rw [htl, shl]; push_cast; ring
    have hth' : (th : ℝ) = 2 * 2 ^ w / (power.lo * (2 * i + 1)) := by
      rw [hth, shl]; push_cast; ring
    have b1 : (tl : ℝ) ≤ t := by
      rw [htl', et]
      have : (0:ℝ) < y ^ (2 * i + 1) * 2 ^ w := by positivity
      have := hpc.2
      gcongr
    have b2 : t ≤ (th : ℝ) := by
      rw [hth', et]
      have := hpc.1
      gcongr
    have hle : tl ≤ th := by exact_mod_cast b1.trans b2
    -- the term interval
    set term : DFI := ⟨⌊tl * 2 ^ w⌋, ⌈th * 2 ^ w⌉, w⟩ with hterm
    have hft : fromRatioRange tl th w = some term := by
      unfold fromRatioRange; rw [if_pos hle]
    have hct : term.Contains t := by
      rw [contains_iff]
      simp only [hterm]
      have f1 : ((⌊tl * 2 ^ w⌋ : Int) : ℝ) ≤ (tl : ℝ) * 2 ^ w := by exact_mod_cast Int.floor_le (tl * 2 ^ w)
      have f2 : ((th : ℝ) * 2 ^ w) ≤ (⌈th * 2 ^ w⌉ : Int) := by exact_mod_cast Int.le_ceil (th * 2 ^ w)
      constructor
      · have := mul_le_mul_of_nonneg_right b1 hP.le; linarith
      · have := mul_le_mul_of_nonneg_right b2 hP.le; linarith
    -- next power
    have hnp : 2 * 2 ^ w ≤ (power.mul sq).lo := by
      rw [mul_same_lo (by rw [h2, hsqd])]
      obtain ⟨mn, mx, e1, -, -, -, hm, -⟩ := mulOp_bounds power.lo power.hi sq.lo sq.hi sq.log2Denom
      rw [e1, le_shr_iff, hsqd]
      have hsqo : sq.lo ≤ sq.hi := hsq.ordered
      simp only [List.mem_cons, List.not_mem_nil, or_false] at hm
      rcases hm with rfl | rfl | rfl | rfl <;> nlinarith
    have hadd : (ret.add term).log2Denom = w := by
      rw [add_same (by rw [h1])]; exact h1
    obtain ⟨r, hr1, hr2, hr3⟩ := ih (i + 1) (ret.add term) (power.mul sq) (s + t) hadd
      (by rw [mul_same_lo (by rw [h2, hsqd])]; exact hsqd) (contains_add h3 hct)
      (by
        have := contains_mul h4 hsq
        have e : y ^ (2 * (i + 1) + 1) = y ^ (2 * i + 1) * (y * y) := by ring
        rw [e]; exact this) hnp
    refine ⟨r, ?_, hr2, ?_⟩
    · unfold logCoreLoop
      simp only [hmi, ratioNew, hd1, hd2, if_false, Option.bind_eq_bind, Option.bind_some]
      rw [hft]
      exact hr1
    · have e : s + t + ∑ j ∈ Finset.range count,
            2 / ((2 * ((i + 1 + j : ℕ) : ℝ) + 1) * y ^ (2 * (i + 1 + j) + 1)) =
          s + ∑ j ∈ Finset.range (count + 1),
            2 / ((2 * ((i + j : ℕ) : ℝ) + 1) * y ^ (2 * (i + j) + 1)) := by
        rw [Finset.sum_range_succ']
        have e1 : ∀ j, i + 1 + j = i + (j + 1) := fun j => by ring
        simp only [e1, Nat.add_zero]
        rw [ht]; ring
      rw [e] at hr3; exact hr3

/-- `log_core` succeeds on every interval at or above 2 and encloses `log ((y+1)/(y-1))`. -/
theorem logCore_spec (a : DFI) (ho : a.Ordered) (h2 : 2 * 2 ^ a.log2Denom ≤ a.lo) :
    ∃ r, a.logCore = some r ∧ r.log2Denom = a.log2Denom ∧
      ∀ y : ℝ, a.Contains y → r.Contains (Real.log ((y + 1) / (y - 1))) := by
  unfold logCore
  unfold Ordered at ho
  rw [if_neg (by omega), guardBits_eq]
  set w := a.log2Denom + 10 + Nat.log 2 (a.log2Denom + 1) with hw
  simp only [Option.bind_eq_bind, Option.bind_some, Option.pure_def]
  have hplo : (a.convertLog2Denom w).lo = a.lo * 2 ^ (w - a.log2Denom) := by
    unfold convertLog2Denom convertLog2DenomFloor shl; simp only
    rw [if_pos (by omega)]
  have hsplit : (2:Int) ^ w = 2 ^ a.log2Denom * 2 ^ (w - a.log2Denom) := by
    rw [← pow_add]; congr 1; omega
  have hpos : (0:Int) < 2 ^ (w - a.log2Denom) := by positivity
  have hge : 2 * 2 ^ w ≤ (a.convertLog2Denom w).lo := by
    rw [hplo, hsplit]; nlinarith
  rw [if_neg (by unfold shl; omega)]
  have hsqlo : 2 ^ w ≤ (a.convertLog2Denom w).square.lo := by
    rw [square_eq]
    simp only
    rw [le_shr_iff]
    have oc : (a.convertLog2Denom w).Ordered := (contains_convert (contains_lower ho) w).ordered
    obtain ⟨-, -, -, h4, -⟩ := abs_spec _ oc
    have hw0 : (0:Int) < 2 ^ w := by positivity
    have : (a.convertLog2Denom w).abs.lo = (a.convertLog2Denom w).lo := by
      unfold Ordered at oc
      rcases h4 with h | h | h <;> omega
    rw [this]
    change 2 ^ w * 2 ^ w ≤ _
    nlinarith
  -- run the loop once for each member
  have run : ∀ y : ℝ, a.Contains y → ∃ r, logCoreLoop w (shl 2 w) (a.convertLog2Denom w).square w 0 (zero w)
      (a.convertLog2Denom w) = some r ∧ r.log2Denom = w ∧
      r.Contains (∑ i ∈ Finset.range w, 2 / ((2 * i + 1) * y ^ (2 * i + 1))) ∧ 2 ≤ y := by
    intro y hy
    have hy2 : 2 ≤ y := by
      have := ((contains_iff _ _).mp hy).1
      have hP : (0:ℝ) < 2 ^ a.log2Denom := by positivity
      have h2' : (2:ℝ) * 2 ^ a.log2Denom ≤ a.lo := by exact_mod_cast h2
      rw [← mul_le_mul_iff_left₀ hP]; linarith
    have hyw := contains_convert hy w
    obtain ⟨r, e1, e2, e3⟩ := logCoreLoop_spec w (a.convertLog2Denom w).square hy2 (contains_square hyw) rfl
      hsqlo w 0 (zero w) (a.convertLog2Denom w) 0 rfl rfl (by unfold Contains zero; simp)
      (by simpa using hyw) hge
    refine ⟨r, e1, e2, ?_, hy2⟩
    rw [zero_add] at e3
    convert e3 using 1
    apply Finset.sum_congr rfl
    intro j _
    rw [zero_add]
  obtain ⟨r, hr, hrd, -, -⟩ := run _ (contains_lower ho)
  rw [hr]
  refine ⟨_, rfl, rfl, ?_⟩
  intro y hy
  apply contains_convert
  obtain ⟨r', hr', hrd', hc, hy2⟩ := run y hy
  rw [hr] at hr'
  simp only [Option.some.injEq] at hr'
  subst hr'
  have hser := atanh_series hy2 w
  unfold Contains at hc ⊢
  simp only [hrd] at hc ⊢
  refine ⟨hc.1.trans hser.1, hser.2.trans ?_⟩
  push_cast
  rw [add_div]
  have htail : (4 / 3 : ℝ) * (1 / 4) ^ w ≤ 1 / 2 ^ w := by
    have e : (1 / 4 : ℝ) ^ w = 1 / 2 ^ w * (1 / 2 ^ w) := by
      rw [div_pow, one_pow, show (4:ℝ) = 2 * 2 by norm_num, mul_pow]; field_simp
    rw [e]
    have hw1 : (2:ℝ) ≤ 2 ^ w := by
      calc (2:ℝ) = 2 ^ 1 := by norm_num
        _ ≤ 2 ^ w := pow_le_pow_right₀ (by norm_num) (by omega)
    have : (1:ℝ) / 2 ^ w ≤ 1 / 2 := by gcongr
    have h0 : (0:ℝ) < 1 / 2 ^ w := by positivity
    nlinarith
  linarith [hc.2]

/-- scaling a positive bound into `[3/2, 3)`. -/
theorem logShift_spec (b : Rat) (k : Int) (h1 : (2:ℝ) ^ k ≤ b) (h2 : (b:ℝ) < 2 ^ (k + 1)) :
    (b:ℝ) = ((logShift b k).1 : ℝ) * 2 ^ (logShift b k).2 ∧
    (3 / 2 : ℝ) ≤ ((logShift b k).1 : ℝ) ∧ ((logShift b k).1 : ℝ) < 3 := by
  have h2' : (b:ℝ) < 2 * 2 ^ k := by rw [zpow_add_one₀ (by norm_num)] at h2; linarith
  have hp : (0:ℝ) < 2 ^ k := by positivity
  -- the scaled bound
  have key : (((if k < 0 then b * ((shl 1 (-k).toNat : Int) : Rat)
      else b / ((shl 1 k.toNat : Int) : Rat)) : Rat) : ℝ) = b / 2 ^ k := by
    split
    · next h =>
      obtain ⟨m, rfl⟩ : ∃ m : Nat, k = -(m : Int) := ⟨(-k).toNat, by omega⟩
      rw [neg_neg, Int.toNat_natCast, zpow_neg, zpow_natCast, shl]; push_cast; field_simp
    · next h =>
      obtain ⟨m, rfl⟩ : ∃ m : Nat, k = (m : Int) := ⟨k.toNat, by omega⟩
      rw [Int.toNat_natCast, zpow_natCast, shl]; push_cast; field_simp
  unfold logShift
  simp only
  generalize (if k < 0 then b * ((shl 1 (-k).toNat : Int) : Rat)
      else b / ((shl 1 k.toNat : Int) : Rat)) = s at key ⊢
  have s1 : (1:ℝ) ≤ s := by rw [key, le_div_iff₀ hp]; linarith
  have s2 : (s:ℝ) < 2 := by rw [key, div_lt_iff₀ hp]; linarith
  have eb : (b:ℝ) = s * 2 ^ k := by rw [key]; field_simp
  split
  · next h =>
    have h' : (s:ℝ) < 3 / 2 := by
      have : ((s:Rat):ℝ) < ((3/2 : Rat):ℝ) := by exact_mod_cast h
      push_cast at this; exact this
    simp only; push_cast
    refine ⟨?_, by linarith, by linarith⟩
    rw [zpow_sub_one₀ (by norm_num), eb]; ring
  · next h =>
    push Not at h
    have h' : (3 / 2 : ℝ) ≤ s := by
      have : ((3/2 : Rat):ℝ) ≤ ((s:Rat):ℝ) := by exact_mod_cast h
      push_cast at this; exact this
    exact ⟨eb, h', by linarith⟩

/-- `log` succeeds on every positive interval and encloses the logarithm of every member. -/
theorem log_spec (ln2 : Nat → DFI) (hln2 : ∀ n, (ln2 n).Contains (Real.log 2)) (a : DFI)
    (ho : a.Ordered) (hpos : 0 < a.lo) :
    ∃ r, a.log ln2 = some r ∧ r.log2Denom = a.log2Denom ∧
      ∀ x : ℝ, a.Contains x → r.Contains (Real.log x) := by
  unfold Ordered at ho
  unfold log
  rw [if_neg (by omega), if_neg (by omega)]
  set w := a.log2Denom + 16 with hw
  have hl : ∃ l, Algebraics.floorLog2 a.lo = some l := by
    unfold Algebraics.floorLog2; rw [if_pos hpos]; exact ⟨_, rfl⟩
  have hh : ∃ h, Algebraics.floorLog2 a.hi = some h := by
    unfold Algebraics.floorLog2; rw [if_pos (by omega)]; exact ⟨_, rfl⟩
  obtain ⟨l, hl⟩ := hl
  obtain ⟨h, hh⟩ := hh
  have hP : (0:ℝ) < 2 ^ a.log2Denom := by positivity
  have pw : ∀ (c : Int) (k : Nat), Algebraics.floorLog2 c = some k →
      ∀ b : Rat, (b:ℝ) = c / 2 ^ a.log2Denom →
      (2:ℝ) ^ ((k:Int) - a.log2Denom) ≤ b ∧ (b:ℝ) < 2 ^ ((k:Int) - a.log2Denom + 1) := by
    intro c k hk b hb
    obtain ⟨p1, p2⟩ := (floorLog2_spec _ _).mp hk
    have p1' : (2:ℝ) ^ k ≤ c := by exact_mod_cast p1
    have p2' : (c:ℝ) < 2 ^ (k + 1) := by exact_mod_cast p2
    rw [hb, zpow_add_one₀ (by norm_num), zpow_sub₀ (by norm_num), zpow_natCast, zpow_natCast]
    constructor
    · gcongr
    · rw [div_mul_eq_mul_div, ← pow_succ]; gcongr
  have elo : ((a.lowerBound : Rat) : ℝ) = a.lo / 2 ^ a.log2Denom := by
    unfold lowerBound shl; push_cast; rw [one_mul]
  have ehi : ((a.upperBound : Rat) : ℝ) = a.hi / 2 ^ a.log2Denom := by
    unfold upperBound shl; push_cast; rw [one_mul]
  obtain ⟨l1, l2⟩ := pw _ _ hl _ elo
  obtain ⟨u1, u2⟩ := pw _ _ hh _ ehi
  obtain ⟨L1, L2, L3⟩ := logShift_spec _ _ l1 l2
  obtain ⟨U1, U2, U3⟩ := logShift_spec _ _ u1 u2
  rw [hl, hh]
  simp only [Option.bind_eq_bind, Option.bind_some, Option.pure_def]
  generalize logShift a.lowerBound ((l:Int) - a.log2Denom) = pl at *
  generalize logShift a.upperBound ((h:Int) - a.log2Denom) = ph at *
  obtain ⟨sl, kl⟩ := pl
  obtain ⟨sh, kh⟩ := ph
  simp only at *
  have hbounds : ((a.lowerBound : Rat) : ℝ) ≤ ((a.upperBound : Rat) : ℝ) := by
    rw [elo, ehi]
    have : (a.lo:ℝ) ≤ a.hi := by exact_mod_cast ho
    gcongr
  -- the shifts are in order
  have hk : kl ≤ kh := by
    by_contra hc
    push Not at hc
    have h3 : (2:ℝ) ^ (kh + 1) ≤ 2 ^ kl := zpow_le_zpow_right₀ (by norm_num) (by omega)
    rw [zpow_add_one₀ (by norm_num)] at h3
    have h4 : (0:ℝ) < 2 ^ kh := by positivity
    have h5 : (0:ℝ) < 2 ^ kl := by positivity
    rw [L1, U1] at hbounds
    nlinarith
  -- the log_core calls
  have core : ∀ s : Rat, (3 / 2 : ℝ) ≤ s → (s:ℝ) < 3 → ∃ c, (fromRatio ((s + 1) / (s - 1)) w).logCore = some c ∧
      c.Contains (Real.log s) := by
    intro s s1 s2
    have hc := contains_fromRatio ((s + 1) / (s - 1)) w
    have hs1 : (0:ℝ) < s - 1 := by linarith
    have hge : 2 * 2 ^ w ≤ (fromRatio ((s + 1) / (s - 1)) w).lo := by
      unfold fromRatio
      simp only
      have e : (((shl ((s + 1) / (s - 1)).num w : Int) : Rat) / ((s + 1) / (s - 1)).den) =
          (s + 1) / (s - 1) * 2 ^ w := by
        rw [shl]; push_cast; conv_rhs => rw [← Rat.num_div_den ((s + 1) / (s - 1))]
        ring
      rw [e, Int.le_floor]
      have s1' : (0:Rat) < s - 1 := by exact_mod_cast hs1
      have s2' : s < 3 := by exact_mod_cast s2
      push_cast
      have : (2:Rat) ≤ (s + 1) / (s - 1) := by rw [le_div_iff₀ s1']; linarith
      gcongr
    obtain ⟨c, e1, -, e3⟩ := logCore_spec _ hc.ordered hge
    refine ⟨c, e1, ?_⟩
    have := e3 _ hc
    have e : ((((s + 1) / (s - 1) : Rat) : ℝ) + 1) / ((((s + 1) / (s - 1) : Rat) : ℝ) - 1) = s := by
      push_cast
      have h0 : (s:ℝ) - 1 ≠ 0 := by linarith
      have h1 : ((s:ℝ) + 1) / (s - 1) - 1 = 2 / (s - 1) := by field_simp; ring
      have h2 : ((s:ℝ) + 1) / (s - 1) + 1 = 2 * s / (s - 1) := by field_simp; ring
      rw [h1, h2]; field_simp
    rwa [e] at this
  obtain ⟨cl, ecl, hcl⟩ := core sl L2 L3
  obtain ⟨ch, ech, hch⟩ := core sh U2 U3
  have hfr : fromIntRange kl kh w = some ((⟨kl, kh, 0⟩ : DFI).convertLog2Denom w) := by
    unfold fromIntRange new; rw [if_pos hk]; rfl
  rw [hfr, ecl, ech]
  simp only [Option.bind_some]
  refine ⟨_, rfl, rfl, ?_⟩
  have hkl : ((⟨kl, kh, 0⟩ : DFI).convertLog2Denom w).Contains kl := by
    apply contains_convert; unfold Contains; simp; exact_mod_cast hk
  have hkh : ((⟨kl, kh, 0⟩ : DFI).convertLog2Denom w).Contains kh := by
    apply contains_convert; unfold Contains; simp; exact_mod_cast hk
  have el : Real.log a.lowerBound = kl * Real.log 2 + Real.log sl := by
    rw [L1, Real.log_mul (by linarith) (by positivity), Real.log_zpow]; ring
  have eu : Real.log a.upperBound = kh * Real.log 2 + Real.log sh := by
    rw [U1, Real.log_mul (by linarith) (by positivity), Real.log_zpow]; ring
  have rl := contains_add (contains_mul hkl (hln2 w)) (contains_union_left hcl hch.ordered)
  have ru := contains_add (contains_mul hkh (hln2 w)) (contains_union_right hcl.ordered hch)
  rw [← el] at rl
  rw [← eu] at ru
  intro x hx
  apply contains_convert
  have hlow0 : (0:ℝ) < a.lowerBound := lt_of_lt_of_le (by positivity) l1
  have hx1 : ((a.lowerBound : Rat) : ℝ) ≤ x := by rw [elo]; exact hx.1
  have hx2 : x ≤ ((a.upperBound : Rat) : ℝ) := by rw [ehi]; exact hx.2
  have m1 := Real.log_le_log hlow0 hx1
  have m2 := Real.log_le_log (lt_of_lt_of_le hlow0 hx1) hx2
  exact ⟨rl.1.trans m1, m2.trans ru.2⟩

end DFI
end Algebraics
