import Verif.Lemmas.Log
import Verif.Lemmas.Exp

/-!
How narrow the results of `log_core` and `log` are (`src/interval_arithmetic.rs:593-684`).
-/

namespace Algebraics

/-- the partial sums of the series stay below its limit, for every argument above 1 -/
theorem atanh_sum_le {y : ℝ} (hy : 1 < y) (N : ℕ) :
    ∑ i ∈ Finset.range N, 2 / ((2 * (i:ℝ) + 1) * y ^ (2 * i + 1)) ≤ Real.log ((y + 1) / (y - 1)) := by
  have hx : |y⁻¹| < 1 := by
    rw [abs_of_pos (by positivity)]
    exact inv_lt_one_of_one_lt₀ hy
  have h := Real.hasSum_log_sub_log_of_abs_lt_one hx
  have e : Real.log (1 + y⁻¹) - Real.log (1 - y⁻¹) = Real.log ((y + 1) / (y - 1)) := by
    have h1 : (1 - y⁻¹) = (y - 1) / y := by field_simp
    have h2 : (1 + y⁻¹) = (y + 1) / y := by field_simp
    rw [h1, h2, Real.log_div (by linarith) (by linarith), Real.log_div (by linarith) (by linarith),
      Real.log_div (by linarith) (by linarith)]
    ring
  have ef : (fun k : ℕ => (2:ℝ) * (1 / (2 * k + 1)) * y⁻¹ ^ (2 * k + 1)) =
      fun k : ℕ => 2 / ((2 * k + 1) * y ^ (2 * k + 1)) := by
    funext k
    rw [inv_pow]
    have : (2 * (k:ℝ) + 1) ≠ 0 := by positivity
    field_simp
  rw [e, ef] at h
  exact sum_le_hasSum _ (fun i _ => by positivity) h

/-- how fast `log ((y+1)/(y-1))` falls -/
theorem atanh_gap {u v : ℝ} (hu : 1.99 ≤ u) (hv : u ≤ v) :
    Real.log ((u + 1) / (u - 1)) - Real.log ((v + 1) / (v - 1)) ≤ 0.68 * (v - u) := by
  have h1 : 0 < u - 1 := by linarith
  have h2 : 0 < v - 1 := by linarith
  have h3 : 0 < u + 1 := by linarith
  have h4 : 0 < v + 1 := by linarith
  rw [← Real.log_div (by positivity) (by positivity)]
  have h5 := Real.log_le_sub_one_of_pos (show 0 < (u + 1) / (u - 1) / ((v + 1) / (v - 1)) by positivity)
  refine h5.trans ?_
  have e : (u + 1) / (u - 1) / ((v + 1) / (v - 1)) - 1 = 2 * (v - u) / ((u - 1) * (v + 1)) := by
    field_simp; ring
  rw [e, div_le_iff₀ (by positivity)]
  have h6 : (2.9601:ℝ) ≤ (u - 1) * (v + 1) := by nlinarith
  nlinarith

/-- one more square, rounded down, in the lower bound of the powers -/
theorem pow_step_lo {P δ u U q p : ℝ} {i : ℕ} (hP : 0 < P) (hδP : δ * P = 1) (u2 : 2 ≤ u) (U1 : 1 ≤ U) (hδ0 : 0 < δ)
    (hδs : δ ≤ 1 / 1024) (hU : U = u * (1 - δ)) (q0 : 0 ≤ q) (ql : u ^ 2 * P - 1 ≤ q)
    (hp : U ^ (2 * i + 1) * P ≤ p) : U ^ (2 * (i + 1) + 1) * P ≤ p * q / P - 1 := by
  have hUi : 1 ≤ U ^ (2 * i + 1) := one_le_pow₀ U1
  set W := U ^ (2 * i + 1) with hW
  have s1 : W * (u ^ 2 * P - 1) ≤ p * q / P := by
    rw [le_div_iff₀ hP]
    calc W * (u ^ 2 * P - 1) * P = W * P * (u ^ 2 * P - 1) := by ring
      _ ≤ W * P * q := by gcongr
      _ ≤ _ := by gcongr
  have s0 : U ^ 2 + 4 * δ ≤ u ^ 2 := by
    rw [hU, mul_pow]
    have h1 : (4:ℝ) ≤ u ^ 2 := by nlinarith
    have h2 : δ ≤ 2 * δ - δ ^ 2 := by nlinarith
    have h3 : 4 * δ ≤ u ^ 2 * (2 * δ - δ ^ 2) := by
      calc 4 * δ ≤ u ^ 2 * δ := by gcongr
        _ ≤ _ := by gcongr
    linarith [h3, show u ^ 2 * (1 - δ) ^ 2 = u ^ 2 - u ^ 2 * (2 * δ - δ ^ 2) by ring]
  have s2 : U ^ 2 * P + 3 ≤ u ^ 2 * P - 1 := by
    have := mul_le_mul_of_nonneg_right s0 hP.le
    have e : (U ^ 2 + 4 * δ) * P = U ^ 2 * P + 4 * (δ * P) := by ring
    rw [e, hδP] at this
    linarith
  have s3 := mul_le_mul_of_nonneg_left s2 (show 0 ≤ W by linarith)
  have e : U ^ (2 * (i + 1) + 1) * P = W * (U ^ 2 * P) := by rw [hW]; ring
  rw [e]
  linarith [show W * (U ^ 2 * P + 3) = W * (U ^ 2 * P) + 3 * W by ring]

/-- one more square, rounded up, in the upper bound of the powers -/
theorem pow_step_hi {P δ v V q p : ℝ} {i : ℕ} (hP : 0 < P) (hδP : δ * P = 1) (v2 : 2 ≤ v) (hδ0 : 0 < δ)
    (hV : V = v * (1 + δ)) (q0 : 0 ≤ q) (qh : q ≤ v ^ 2 * P + 1)
    (hp : p ≤ V ^ (2 * i + 1) * P) : p * q / P + 1 ≤ V ^ (2 * (i + 1) + 1) * P := by
  have V1 : 1 ≤ V := by rw [hV]; nlinarith
  have hVi : 1 ≤ V ^ (2 * i + 1) := one_le_pow₀ V1
  set W := V ^ (2 * i + 1) with hW
  have s1 : p * q / P ≤ W * (v ^ 2 * P + 1) := by
    rw [div_le_iff₀ hP]
    calc p * q ≤ W * P * q := by gcongr
      _ ≤ W * P * (v ^ 2 * P + 1) := by gcongr
      _ = _ := by ring
  have s0 : v ^ 2 + 2 * δ ≤ V ^ 2 := by
    rw [hV, mul_pow]
    have h1 : (1:ℝ) ≤ v ^ 2 := by nlinarith
    have h2 : 2 * δ ≤ 2 * δ + δ ^ 2 := by nlinarith
    have h3 : 2 * δ ≤ v ^ 2 * (2 * δ + δ ^ 2) := by
      calc 2 * δ = 1 * (2 * δ) := by ring
        _ ≤ v ^ 2 * (2 * δ + δ ^ 2) := by gcongr
    linarith [h3, show v ^ 2 * (1 + δ) ^ 2 = v ^ 2 + v ^ 2 * (2 * δ + δ ^ 2) by ring]
  have s2 : v ^ 2 * P + 1 ≤ V ^ 2 * P - 1 := by
    have := mul_le_mul_of_nonneg_right s0 hP.le
    have e : (v ^ 2 + 2 * δ) * P = v ^ 2 * P + 2 * (δ * P) := by ring
    rw [e, hδP] at this
    linarith
  have s3 := mul_le_mul_of_nonneg_left s2 (show 0 ≤ W by linarith)
  have e : V ^ (2 * (i + 1) + 1) * P = W * (V ^ 2 * P) := by rw [hW]; ring
  rw [e]
  linarith [show W * (V ^ 2 * P - 1) = W * (V ^ 2 * P) - W by ring]

namespace DFI

/-- the product of two nonnegative intervals of the same precision -/
theorem mul_nonneg_ends {a b : DFI} (h : a.log2Denom = b.log2Denom) (a0 : 0 ≤ a.lo) (ao : a.lo ≤ a.hi)
    (b0 : 0 ≤ b.lo) (bo : b.lo ≤ b.hi) :
    a.mul b = ⟨shr (a.lo * b.lo) b.log2Denom, -shr (-(a.hi * b.hi)) b.log2Denom, b.log2Denom⟩ := by
  rw [mul_same_lo h]
  obtain ⟨mn, mx, e1, e2, ⟨p1, p2, p3, p4⟩, ⟨q1, q2, q3, q4⟩, m1, m2⟩ :=
    mulOp_bounds a.lo a.hi b.lo b.hi b.log2Denom
  rw [e1, e2]
  have t1 : a.lo * b.lo ≤ a.lo * b.hi := by gcongr
  have t2 : a.lo * b.lo ≤ a.hi * b.lo := by gcongr
  have t3 : a.lo * b.hi ≤ a.hi * b.hi := by gcongr; omega
  have t4 : a.hi * b.lo ≤ a.hi * b.hi := by gcongr; omega
  simp only [List.mem_cons, List.not_mem_nil, or_false] at m1 m2
  have em : mn = a.lo * b.lo := by rcases m1 with h | h | h | h <;> omega
  have ex : mx = a.hi * b.hi := by rcases m2 with h | h | h | h <;> omega
  rw [em, ex]

/-- both ends of the sum in `log_core`, when the powers are known to lie between `Lo i` and `Hi i` -/
theorem logCoreLoop_tight (w : Nat) (sq : DFI) (hsqd : sq.log2Denom = w) (hsq0 : 0 ≤ sq.lo)
    (hsqo : sq.lo ≤ sq.hi) (Lo Hi : ℕ → ℝ) (hLo0 : ∀ i, 0 < Lo i)
    (hLo : ∀ i (p : ℝ), Lo i * 2 ^ w ≤ p → Lo (i + 1) * 2 ^ w ≤ p * sq.lo / 2 ^ w - 1)
    (hHi : ∀ i (p : ℝ), p ≤ Hi i * 2 ^ w → p * sq.hi / 2 ^ w + 1 ≤ Hi (i + 1) * 2 ^ w) :
    ∀ (count i : Nat) (ret power r : DFI), ret.log2Denom = w → power.log2Denom = w →
    power.lo ≤ power.hi → Lo i * 2 ^ w ≤ power.lo → power.hi ≤ Hi i * 2 ^ w →
    logCoreLoop w (shl 2 w) sq count i ret power = some r →
    r.log2Denom = w ∧
    (ret.lo : ℝ) + ∑ j ∈ Finset.range count, (2 / ((2 * ((i + j : ℕ) : ℝ) + 1) * Hi (i + j)) * 2 ^ w - 1) ≤ r.lo ∧
    (r.hi : ℝ) ≤ ret.hi + ∑ j ∈ Finset.range count, (2 / ((2 * ((i + j : ℕ) : ℝ) + 1) * Lo (i + j)) * 2 ^ w + 1) := by
  intro count
  induction count with
  | zero =>
    intro i ret power r h1 _ _ _ _ hr
    simp only [logCoreLoop, Option.some.injEq] at hr
    subst hr
    simp [h1]
  | succ count ih =>
    intro i ret power r h1 h2 ho h5 h6 hr
    have hP : (0:ℝ) < 2 ^ w := by positivity
    have hlo0 : (0:ℝ) < power.lo := lt_of_lt_of_le (mul_pos (hLo0 i) hP) h5
    have hplo : 0 < power.lo := by exact_mod_cast hlo0
    have hphi : 0 < power.hi := by omega
    have hhi0 : (0:ℝ) < power.hi := by exact_mod_cast hphi
    have hk : (1:Int) ≤ ((i * 2 + 1 : Nat) : Int) := by push_cast; omega
    have hmi : power.mulInt ((i * 2 + 1 : Nat) : Int) =
        ⟨power.lo * ((i * 2 + 1 : Nat) : Int), power.hi * ((i * 2 + 1 : Nat) : Int), w⟩ := by
      unfold mulInt; rw [if_neg (by omega)]; simp [h2]
    have hd1 : power.hi * ((i * 2 + 1 : Nat) : Int) ≠ 0 := (mul_pos hphi (by omega)).ne'
    have hd2 : power.lo * ((i * 2 + 1 : Nat) : Int) ≠ 0 := (mul_pos hplo (by omega)).ne'
    unfold logCoreLoop at hr
    simp only [hmi, ratioNew, hd1, hd2, if_false, Option.bind_eq_bind, Option.bind_some,
      Option.bind_eq_some_iff] at hr
    obtain ⟨term, ht, hr⟩ := hr
    unfold fromRatioRange at ht
    split at ht
    swap
    · simp at ht
    simp only [Option.some.injEq] at ht
    subst ht
    rw [add_same (by rw [h1]), mul_nonneg_ends (by rw [h2, hsqd]) hplo.le ho hsq0 hsqo, hsqd] at hr
    -- the next power
    have n1 : ((power.lo * sq.lo : ℤ) : ℝ) / 2 ^ w - 1 ≤ (shr (power.lo * sq.lo) w : ℤ) := by
      have := lt_shr (power.lo * sq.lo) w
      rw [sub_le_iff_le_add, div_le_iff₀ hP]; exact this.le
    have n2 : ((-shr (-(power.hi * sq.hi)) w : ℤ) : ℝ) ≤ ((power.hi * sq.hi : ℤ) : ℝ) / 2 ^ w + 1 := by
      have := neg_shr_neg_lt (power.hi * sq.hi) w
      rw [← sub_le_iff_le_add, le_div_iff₀ hP]; exact this.le
    have n3 : shr (power.lo * sq.lo) w ≤ -shr (-(power.hi * sq.hi)) w := by
      have t1 := shr_le (power.lo * sq.lo) w
      have t2 := le_neg_shr_neg (power.hi * sq.hi) w
      have t3 : ((power.lo * sq.lo : ℤ) : ℝ) ≤ ((power.hi * sq.hi : ℤ) : ℝ) := by
        have : power.lo * sq.lo ≤ power.hi * sq.hi := by
          calc power.lo * sq.lo ≤ power.hi * sq.lo := by gcongr
            _ ≤ power.hi * sq.hi := by gcongr
        exact_mod_cast this
      have t4 := le_of_mul_le_mul_right ((t1.trans t3).trans t2) hP
      exact_mod_cast t4
    have n4 := hLo i _ h5
    have n5 := hHi i _ h6
    push_cast at n1 n2
    obtain ⟨r1, r2, r3⟩ := ih (i + 1) _ _ r (by exact h1) rfl n3 (n4.trans n1)
      (by push_cast; exact n2.trans n5) hr
    -- the term
    set tl : Rat := ((shl 2 w : Int) : Rat) / ((power.hi * ((i * 2 + 1 : Nat) : Int) : Int) : Rat) with htl
    set th : Rat := ((shl 2 w : Int) : Rat) / ((power.lo * ((i * 2 + 1 : Nat) : Int) : Int) : Rat) with hth
    have htl' : (tl : ℝ) = 2 * 2 ^ w / (power.hi * (2 * i + 1)) := by
      rw [htl, shl]; push_cast; ring
    have hth' : (th : ℝ) = 2 * 2 ^ w / (power.lo * (2 * i + 1)) := by
      rw [hth, shl]; push_cast; ring
    have f1 : (tl : ℝ) * 2 ^ w - 1 ≤ (⌊tl * 2 ^ w⌋ : Int) := by
      have := Int.sub_one_lt_floor (tl * 2 ^ w)
      have : ((tl * 2 ^ w - 1 : Rat) : ℝ) < ((⌊tl * 2 ^ w⌋ : Int) : ℝ) := by exact_mod_cast this
      push_cast at this; exact this.le
    have f2 : ((⌈th * 2 ^ w⌉ : Int) : ℝ) ≤ (th : ℝ) * 2 ^ w + 1 := by
      have := Int.ceil_lt_add_one (th * 2 ^ w)
      have : ((⌈th * 2 ^ w⌉ : Int) : ℝ) < ((th * 2 ^ w + 1 : Rat) : ℝ) := by exact_mod_cast this
      push_cast at this; exact this.le
    have hi1 : (0:ℝ) < 2 * (i:ℝ) + 1 := by positivity
    have hH0 : 0 < Hi i := by
      have := lt_of_lt_of_le hhi0 h6
      exact pos_of_mul_pos_left this hP.le
    have g1 : 2 / ((2 * (i:ℝ) + 1) * Hi i) ≤ (tl : ℝ) := by
      rw [htl', div_le_div_iff₀ (by positivity) (by positivity)]
      have := mul_le_mul_of_nonneg_left h6 hi1.le
      nlinarith
    have g2 : (th : ℝ) ≤ 2 / ((2 * (i:ℝ) + 1) * Lo i) := by
      rw [hth', div_le_div_iff₀ (by positivity) (mul_pos hi1 (hLo0 i))]
      have := mul_le_mul_of_nonneg_left h5 hi1.le
      nlinarith
    have g1' := mul_le_mul_of_nonneg_right g1 hP.le
    have g2' := mul_le_mul_of_nonneg_right g2 hP.le
    have e1 : ∀ j, i + 1 + j = i + (j + 1) := fun j => by ring
    refine ⟨r1, ?_, ?_⟩
    · rw [Finset.sum_range_succ']
      simp only [e1] at r2
      push_cast at r2 ⊢
      simp only [add_zero]
      linarith
    · rw [Finset.sum_range_succ']
      simp only [e1] at r3
      push_cast at r3 ⊢
      simp only [add_zero]
      linarith

set_option maxHeartbeats 1000000 in
/-- both ends of `log_core` of an interval that is at most one unit wide are within two units of the value
at any of its points -/
theorem logCore_tight (a r : DFI) (y : ℝ) (h2 : 2 * 2 ^ a.log2Denom ≤ a.lo) (h6 : a.hi ≤ 6 * 2 ^ a.log2Denom)
    (hu : a.ulps ≤ 1) (hy : a.Contains y) (hr : a.logCore = some r) :
    r.log2Denom = a.log2Denom ∧
    Real.log ((y + 1) / (y - 1)) * 2 ^ a.log2Denom - 2 ≤ r.lo ∧
    (r.hi : ℝ) ≤ Real.log ((y + 1) / (y - 1)) * 2 ^ a.log2Denom + 2 := by
  have ho : a.lo ≤ a.hi := hy.ordered
  unfold logCore at hr
  rw [if_neg (by omega), guardBits_eq] at hr
  set d := a.log2Denom with hd
  set L := Nat.log 2 (d + 1) with hL
  set w := d + 10 + L with hw
  simp only [Option.bind_eq_bind, Option.bind_some, Option.pure_def] at hr
  rw [convert_up a w (by omega), ← hd, show w - d = 10 + L by omega] at hr
  dsimp only at hr
  have hPi : (0:ℤ) < 2 ^ (10 + L) := by positivity
  have hwd : (2:ℤ) ^ w = 2 ^ d * 2 ^ (10 + L) := by rw [← pow_add]; congr 1; omega
  rw [if_neg (by unfold shl; rw [hwd]; nlinarith)] at hr
  simp only [Option.bind_eq_some_iff, Option.some.injEq] at hr
  obtain ⟨t, ht, rfl⟩ := hr
  refine ⟨rfl, ?_⟩
  set A := a.lo * 2 ^ (10 + L) with hA
  set B := a.hi * 2 ^ (10 + L) with hB
  have hAB : A ≤ B := by rw [hA, hB]; gcongr
  have hA2 : 2 * 2 ^ w ≤ A := by rw [hA, hwd]; nlinarith
  have hB6 : B ≤ 6 * 2 ^ w := by rw [hB, hwd]; nlinarith
  have hpwi : (0:ℤ) < 2 ^ w := by positivity
  have hsq : (⟨A, B, w⟩ : DFI).square = ⟨shr (A * A) w, -shr (-(B * B)) w, w⟩ := by
    rw [square_eq]
    obtain ⟨-, -, -, s4, s5⟩ := abs_spec ⟨A, B, w⟩ hAB
    have e1 : (⟨A, B, w⟩ : DFI).abs.lo = A := by
      rcases s4 with h | h | h
      · have := h.2.1; dsimp only at this; omega
      · exact h.1
      · have := h.2; dsimp only at this; omega
    have e2 : (⟨A, B, w⟩ : DFI).abs.hi = B := by
      rw [s5]; dsimp only; omega
    rw [e1, e2]
  rw [hsq] at ht
  have hP : (0:ℝ) < 2 ^ w := by positivity
  have hD : (0:ℝ) < 2 ^ d := by positivity
  have hG : (0:ℝ) < 2 ^ (10 + L) := by positivity
  have hwr : (2:ℝ) ^ w = 2 ^ d * 2 ^ (10 + L) := by rw [← pow_add]; congr 1; omega
  set δ : ℝ := 1 / 2 ^ w with hδ
  have hδ0 : 0 < δ := by positivity
  have hδP : δ * 2 ^ w = 1 := by rw [hδ]; field_simp
  have hδs : δ ≤ 1 / 1024 := by
    rw [hδ]
    have : (2:ℝ) ^ 10 ≤ 2 ^ w := pow_le_pow_right₀ (by norm_num) (by omega)
    norm_num at this
    exact one_div_le_one_div_of_le (by norm_num) this
  set u : ℝ := A / 2 ^ w with hu'
  set v : ℝ := B / 2 ^ w with hv'
  have hAu : (A:ℝ) = u * 2 ^ w := by rw [hu']; field_simp
  have hBv : (B:ℝ) = v * 2 ^ w := by rw [hv']; field_simp
  have u2 : 2 ≤ u := by rw [hu', le_div_iff₀ hP]; exact_mod_cast hA2
  have v6 : v ≤ 6 := by rw [hv', div_le_iff₀ hP]; exact_mod_cast hB6
  have eu : u = a.lo / 2 ^ d := by rw [hu', hA, hwr]; push_cast; field_simp
  have ev : v = a.hi / 2 ^ d := by rw [hv', hB, hwr]; push_cast; field_simp
  have uy : u ≤ y := by rw [eu]; exact hy.1
  have yv : y ≤ v := by rw [ev]; exact hy.2
  have vu : v - u ≤ 1 / 2 ^ d := by
    rw [eu, ev, ← sub_div]
    have : (a.hi:ℝ) - a.lo ≤ 1 := by unfold ulps at hu; exact_mod_cast hu
    gcongr
  set U : ℝ := u * (1 - δ) with hU
  set V : ℝ := v * (1 + δ) with hV
  have U199 : 1.99 ≤ U := by rw [hU]; nlinarith only [u2, hδs, hδ0]
  have V2 : 2 ≤ V := by rw [hV]; nlinarith only [u2, uy, yv, hδ0]
  have Uu : U ≤ u := by rw [hU]; nlinarith only [u2, hδ0]
  have vV : v ≤ V := by rw [hV]; nlinarith only [u2, uy, yv, hδ0]
  have q0 : 0 ≤ shr (A * A) w := by
    rw [le_shr_iff, zero_mul]; exact mul_self_nonneg A
  have ql : u ^ 2 * 2 ^ w - 1 ≤ (shr (A * A) w : ℤ) := by
    have := lt_shr (A * A) w
    push_cast at this
    rw [hAu] at this
    have h3 : u ^ 2 * 2 ^ w * 2 ^ w < ((shr (A * A) w : ℤ) + 1) * 2 ^ w := by linarith
    have := lt_of_mul_lt_mul_right h3 hP.le
    linarith
  have qh : ((-shr (-(B * B)) w : ℤ) : ℝ) ≤ v ^ 2 * 2 ^ w + 1 := by
    have := neg_shr_neg_lt (B * B) w
    push_cast at this ⊢
    rw [hBv] at this
    have h3 : (-((shr (-(B * B)) w : ℤ) : ℝ) - 1) * 2 ^ w < v ^ 2 * 2 ^ w * 2 ^ w := by linarith
    have := lt_of_mul_lt_mul_right h3 hP.le
    linarith
  have qo : shr (A * A) w ≤ -shr (-(B * B)) w := by
    have t1 := shr_le (A * A) w
    have t2 := le_neg_shr_neg (B * B) w
    have t3 : ((A * A : ℤ) : ℝ) ≤ ((B * B : ℤ) : ℝ) := by
      have : A * A ≤ B * B := by nlinarith
      exact_mod_cast this
    have t4 := le_of_mul_le_mul_right ((t1.trans t3).trans t2) hP
    exact_mod_cast t4
  have q0r : (0:ℝ) ≤ (shr (A * A) w : ℤ) := by exact_mod_cast q0
  have q1r : (0:ℝ) ≤ ((-shr (-(B * B)) w : ℤ) : ℝ) := by exact_mod_cast q0.trans qo
  obtain ⟨r1, r2, r3⟩ := logCoreLoop_tight w ⟨shr (A * A) w, -shr (-(B * B)) w, w⟩ rfl q0 qo
    (fun i => U ^ (2 * i + 1)) (fun i => V ^ (2 * i + 1)) (fun i => by positivity)
    (fun i p hp => pow_step_lo hP hδP u2 (by linarith) hδ0 hδs hU q0r ql hp)
    (fun i p hp => pow_step_hi hP hδP (by linarith) hδ0 hV q1r qh hp)
    w 0 (zero w) ⟨A, B, w⟩ t rfl rfl hAB
    (by
      dsimp only
      rw [hAu, Nat.mul_zero, zero_add, pow_one]
      gcongr)
    (by
      dsimp only
      rw [hBv, Nat.mul_zero, zero_add, pow_one]
      gcongr)
    ht
  simp only [zero_add, Finset.sum_sub_distrib, Finset.sum_add_distrib, ← Finset.sum_mul,
    Finset.sum_const, Finset.card_range, nsmul_eq_mul, mul_one] at r2 r3
  have hz1 : ((zero w).lo : ℝ) = 0 := by simp [zero]
  have hz2 : ((zero w).hi : ℝ) = 0 := by simp [zero]
  rw [hz1, zero_add] at r2
  rw [hz2, zero_add] at r3
  have a1 := (atanh_series V2 w).2
  have a2 := atanh_sum_le (show 1 < U by linarith) w
  have tail : (4 / 3 * (1 / 4) ^ w : ℝ) * 2 ^ w ≤ 1 := by
    have e : (1 / 4 : ℝ) ^ w * 2 ^ w = (1 / 2) ^ w := by rw [← mul_pow]; norm_num
    have : (1 / 2 : ℝ) ^ w ≤ (1 / 2) ^ 1 := pow_le_pow_of_le_one (by norm_num) (by norm_num) (by omega)
    rw [mul_assoc, e]
    linarith
  have gV := atanh_gap (show 1.99 ≤ y by linarith) (yv.trans vV)
  have gU := atanh_gap U199 (Uu.trans uy)
  set g := Real.log ((y + 1) / (y - 1)) with hg
  set gv := Real.log ((V + 1) / (V - 1)) with hgv
  set gu := Real.log ((U + 1) / (U - 1)) with hgu
  have b1 : gv * 2 ^ w - 1 - w ≤ t.lo := by
    have := mul_le_mul_of_nonneg_right a1 hP.le
    linarith only [this, r2, tail]
  have b2 : (t.hi:ℝ) ≤ gu * 2 ^ w + w := by
    have := mul_le_mul_of_nonneg_right a2 hP.le
    linarith only [this, r3]
  -- the widths
  have c1 : (V - y) * 2 ^ w ≤ 2 ^ (10 + L) + 6 := by
    have h7 : v * δ ≤ 6 * δ := by gcongr
    have : V - y ≤ 1 / 2 ^ d + 6 * δ := by rw [hV]; linarith only [h7, uy, vu]
    have := mul_le_mul_of_nonneg_right this hP.le
    have e : (1 / 2 ^ d + 6 * δ) * 2 ^ w = 2 ^ (10 + L) + 6 := by
      rw [add_mul, mul_assoc 6, hδP, hwr]; field_simp
    linarith only [this, e]
  have c2 : (y - U) * 2 ^ w ≤ 2 ^ (10 + L) + 6 := by
    have h7 : u * δ ≤ 6 * δ := by gcongr; linarith only [uy, yv, v6]
    have : y - U ≤ 1 / 2 ^ d + 6 * δ := by rw [hU]; linarith only [h7, yv, vu]
    have := mul_le_mul_of_nonneg_right this hP.le
    have e : (1 / 2 ^ d + 6 * δ) * 2 ^ w = 2 ^ (10 + L) + 6 := by
      rw [add_mul, mul_assoc 6, hδP, hwr]; field_simp
    linarith only [this, e]
  have d1 := mul_le_mul_of_nonneg_right gV hP.le
  have d2 := mul_le_mul_of_nonneg_right gU hP.le
  -- the guard bits are enough
  have guard : (w:ℝ) + 10 ≤ 0.3 * 2 ^ (10 + L) := by
    have h3 : d + 1 < 2 ^ (L + 1) := Nat.lt_pow_succ_log_self (by norm_num) _
    have h4 : L < 2 ^ L := Nat.lt_two_pow_self
    have h5 : w + 10 ≤ 22 * 2 ^ L := by
      have : 2 ^ (L + 1) = 2 * 2 ^ L := by ring
      omega
    have h6 : (w:ℝ) + 10 ≤ 22 * 2 ^ L := by exact_mod_cast h5
    rw [pow_add]
    have : (0:ℝ) < 2 ^ L := by positivity
    norm_num
    linarith only [this, h6]
  unfold convertLog2Denom
  dsimp only
  rw [r1]
  have k1 := lt_convertFloor t.lo w d
  have k2 := convertCeil_lt (t.hi + 1) w d
  rw [div_lt_div_iff₀ hP hD, hwr] at k1
  rw [div_lt_div_iff₀ hD hP, hwr] at k2
  have k1' : (t.lo:ℝ) < ((convertLog2DenomFloor t.lo w d : ℤ) + 1) * 2 ^ (10 + L) := by
    rw [← mul_lt_mul_iff_left₀ hD]; linarith only [k1]
  have k2' : ((convertLog2DenomCeil (t.hi + 1) w d : ℤ) - 1 : ℝ) * 2 ^ (10 + L) < t.hi + 1 := by
    rw [← mul_lt_mul_iff_left₀ hD]; push_cast at k2; linarith only [k2]
  have em : g * 2 ^ w = g * 2 ^ d * 2 ^ (10 + L) := by rw [hwr]; ring
  constructor
  · rw [← mul_le_mul_iff_left₀ hG]
    linarith only [k1', em, b1, d1, c1, guard]
  · rw [← mul_le_mul_iff_left₀ hG]
    linarith only [k2', em, b2, d2, c2, guard]

/-- `log_core` as `log` calls it -/
theorem logCore_scaled (s : Rat) (s1 : (3 / 2 : ℝ) ≤ s) (s2 : (s:ℝ) < 3) (w : ℕ) :
    ∃ c, (fromRatio ((s + 1) / (s - 1)) w).logCore = some c ∧ c.log2Denom = w ∧ c.Contains (Real.log s) ∧
      Real.log s * 2 ^ w - 2 ≤ c.lo ∧ (c.hi : ℝ) ≤ Real.log s * 2 ^ w + 2 := by
  have hc := contains_fromRatio ((s + 1) / (s - 1)) w
  have hs1 : (0:ℝ) < s - 1 := by linarith
  have s1' : (0:Rat) < s - 1 := by exact_mod_cast hs1
  have s0' : (3 / 2 : Rat) ≤ s := by
    have : ((3 / 2 : Rat) : ℝ) ≤ s := by push_cast; exact s1
    exact_mod_cast this
  have s2' : s < 3 := by exact_mod_cast s2
  have e : (((shl ((s + 1) / (s - 1)).num w : Int) : Rat) / ((s + 1) / (s - 1)).den) =
      (s + 1) / (s - 1) * 2 ^ w := by
    rw [shl]; push_cast; conv_rhs => rw [← Rat.num_div_den ((s + 1) / (s - 1))]
    ring
  have hge : 2 * 2 ^ w ≤ (fromRatio ((s + 1) / (s - 1)) w).lo := by
    unfold fromRatio
    simp only
    rw [e, Int.le_floor]
    push_cast
    have : (2:Rat) ≤ (s + 1) / (s - 1) := by rw [le_div_iff₀ s1']; linarith
    gcongr
  have hle : (fromRatio ((s + 1) / (s - 1)) w).hi ≤ 6 * 2 ^ w := by
    unfold fromRatio
    simp only
    rw [e, Int.ceil_le]
    push_cast
    have : (s + 1) / (s - 1) ≤ (6:Rat) := by rw [div_le_iff₀ s1']; linarith
    gcongr
  obtain ⟨c, e1, e2, e3⟩ := logCore_spec _ hc.ordered hge
  obtain ⟨t1, t2, t3⟩ := logCore_tight _ c _ hge hle (fromRatio_ulps _ _) hc e1
  have e3 := e3 _ hc
  have ey : ((((s + 1) / (s - 1) : Rat) : ℝ) + 1) / ((((s + 1) / (s - 1) : Rat) : ℝ) - 1) = s := by
    push_cast
    have h0 : (s:ℝ) - 1 ≠ 0 := by linarith
    have h1 : ((s:ℝ) + 1) / (s - 1) - 1 = 2 / (s - 1) := by field_simp; ring
    have h2 : ((s:ℝ) + 1) / (s - 1) + 1 = 2 * s / (s - 1) := by field_simp; ring
    rw [h1, h2]; field_simp
  rw [ey] at e3 t2 t3
  exact ⟨c, e1, e2, e3, t2, t3⟩

/-- the multiple of `ln 2` that `log` adds -/
theorem mul_ln2_ends {kl kh : ℤ} (hk : kl ≤ kh) {L : DFI} {w : ℕ} (n1 : L.log2Denom = w)
    (n2 : L.Contains (Real.log 2)) (n3 : L.ulps ≤ 8) (l0 : 0 ≤ L.lo) :
    ((⟨kl * 2 ^ w, kh * 2 ^ w, w⟩ : DFI).mul L).log2Denom = w ∧
    kl * Real.log 2 * 2 ^ w - 8 * |(kl:ℝ)| ≤ ((⟨kl * 2 ^ w, kh * 2 ^ w, w⟩ : DFI).mul L).lo ∧
    (((⟨kl * 2 ^ w, kh * 2 ^ w, w⟩ : DFI).mul L).hi : ℝ) ≤ kh * Real.log 2 * 2 ^ w + 8 * |(kh:ℝ)| := by
  obtain ⟨m1, m2, m3, m4⟩ := isLn2_bounds n1 n2 n3
  have hord : L.lo ≤ L.hi := n2.ordered
  rw [mul_same_lo (by rw [n1])]
  refine ⟨n1, ?_⟩
  dsimp only
  obtain ⟨mn, mx, e1, e2, -, -, hm, hx⟩ := mulOp_bounds (kl * 2 ^ w) (kh * 2 ^ w) L.lo L.hi L.log2Denom
  rw [e1, e2, n1]
  have sh : ∀ k t : ℤ, shr (k * 2 ^ w * t) w = k * t := by
    intro k t
    unfold shr
    rw [show k * 2 ^ w * t = k * t * 2 ^ w by ring, Int.mul_ediv_cancel _ (by positivity)]
  have shn : ∀ k t : ℤ, -shr (-(k * 2 ^ w * t)) w = k * t := by
    intro k t
    have := sh (-k) t
    rw [show -k * 2 ^ w * t = -(k * 2 ^ w * t) by ring] at this
    rw [this]; ring
  have near : ∀ (k t : ℤ), (Real.log 2 * 2 ^ w - 8 ≤ (t:ℝ)) → ((t:ℝ) ≤ Real.log 2 * 2 ^ w + 8) →
      k * Real.log 2 * 2 ^ w - 8 * |(k:ℝ)| ≤ ((k * t : ℤ) : ℝ) ∧
      ((k * t : ℤ) : ℝ) ≤ k * Real.log 2 * 2 ^ w + 8 * |(k:ℝ)| := by
    intro k t t1 t2
    push_cast
    have h3 : |(k:ℝ) * (t - Real.log 2 * 2 ^ w)| ≤ |(k:ℝ)| * 8 := by
      rw [abs_mul]
      gcongr
      rw [abs_le]; constructor <;> linarith
    rw [abs_le] at h3
    constructor <;> linarith [h3.1, h3.2]
  obtain ⟨a1, -⟩ := near kl L.lo (by linarith) (by linarith)
  obtain ⟨a2, -⟩ := near kl L.hi (by linarith) (by linarith)
  obtain ⟨-, a3⟩ := near kh L.lo (by linarith) (by linarith)
  obtain ⟨-, a4⟩ := near kh L.hi (by linarith) (by linarith)
  have o1 : ((kl * L.lo : ℤ) : ℝ) ≤ ((kh * L.lo : ℤ) : ℝ) := by
    exact_mod_cast mul_le_mul_of_nonneg_right hk l0
  have o2 : ((kl * L.hi : ℤ) : ℝ) ≤ ((kh * L.hi : ℤ) : ℝ) := by
    exact_mod_cast mul_le_mul_of_nonneg_right hk (l0.trans hord)
  simp only [List.mem_cons, List.not_mem_nil, or_false] at hm hx
  constructor
  · rcases hm with rfl | rfl | rfl | rfl <;> rw [sh] <;> linarith
  · rcases hx with rfl | rfl | rfl | rfl <;> rw [shn] <;> linarith

/-- What `log` computes: both ends are scaled into `[3/2, 3)` by powers of two; the result reaches from the
smaller to the larger one of the logarithms of the scaled ends, and the multiples of `ln 2` are added to that. -/
theorem log_pieces (ln2 : Nat → DFI) (hln2 : IsLn2 ln2) (a r : DFI) (hr : a.log ln2 = some r) :
    ∃ (kl kh : ℤ) (sl sh : ℝ), (a.lo : ℝ) / 2 ^ a.log2Denom = sl * 2 ^ kl ∧
      (a.hi : ℝ) / 2 ^ a.log2Denom = sh * 2 ^ kh ∧ 3 / 2 ≤ sl ∧ sl < 3 ∧ 3 / 2 ≤ sh ∧ sh < 3 ∧ kl ≤ kh ∧
      (∀ s ∈ [sl, sh], ∀ k ∈ [kl, kh], r.Contains (k * Real.log 2 + Real.log s)) ∧
      (kl * Real.log 2 + min (Real.log sl) (Real.log sh)) * 2 ^ a.log2Denom - 1 - (8 * |(kl:ℝ)| + 2) / 2 ^ 16 < r.lo ∧
      (r.hi : ℝ) < (kh * Real.log 2 + max (Real.log sl) (Real.log sh)) * 2 ^ a.log2Denom + 1 +
        (8 * |(kh:ℝ)| + 2) / 2 ^ 16 := by
  unfold log at hr
  by_cases hpos : 0 < a.lo
  swap
  · simp [hpos] at hr
  rw [if_neg (by omega)] at hr
  by_cases ho : a.hi < a.lo
  · simp [ho] at hr
  rw [if_neg ho] at hr
  push Not at ho
  set n := a.log2Denom with hn
  set w := n + 16 with hw
  have hl : ∃ l, Algebraics.floorLog2 a.lo = some l := by
    unfold Algebraics.floorLog2; rw [if_pos hpos]; exact ⟨_, rfl⟩
  have hh : ∃ h, Algebraics.floorLog2 a.hi = some h := by
    unfold Algebraics.floorLog2; rw [if_pos (by omega)]; exact ⟨_, rfl⟩
  obtain ⟨l, hl⟩ := hl
  obtain ⟨h, hh⟩ := hh
  have hP : (0:ℝ) < 2 ^ n := by positivity
  have pw : ∀ (c : Int) (k : Nat), Algebraics.floorLog2 c = some k →
      ∀ b : Rat, (b:ℝ) = c / 2 ^ n →
      (2:ℝ) ^ ((k:Int) - n) ≤ b ∧ (b:ℝ) < 2 ^ ((k:Int) - n + 1) := by
    intro c k hk b hb
    obtain ⟨p1, p2⟩ := (floorLog2_spec _ _).mp hk
    have p1' : (2:ℝ) ^ k ≤ c := by exact_mod_cast p1
    have p2' : (c:ℝ) < 2 ^ (k + 1) := by exact_mod_cast p2
    rw [hb, zpow_add_one₀ (by norm_num), zpow_sub₀ (by norm_num), zpow_natCast, zpow_natCast]
    constructor
    · gcongr
    · rw [div_mul_eq_mul_div, ← pow_succ]; gcongr
  have elo : ((a.lowerBound : Rat) : ℝ) = a.lo / 2 ^ n := by
    unfold lowerBound shl; push_cast; rw [one_mul]
  have ehi : ((a.upperBound : Rat) : ℝ) = a.hi / 2 ^ n := by
    unfold upperBound shl; push_cast; rw [one_mul]
  obtain ⟨l1, l2⟩ := pw _ _ hl _ elo
  obtain ⟨u1, u2⟩ := pw _ _ hh _ ehi
  obtain ⟨L1, L2, L3⟩ := logShift_spec _ _ l1 l2
  obtain ⟨U1, U2, U3⟩ := logShift_spec _ _ u1 u2
  rw [hl, hh] at hr
  simp only [Option.bind_eq_bind, Option.bind_some, Option.pure_def] at hr
  generalize logShift a.lowerBound ((l:Int) - n) = pl at *
  generalize logShift a.upperBound ((h:Int) - n) = ph at *
  obtain ⟨sl, kl⟩ := pl
  obtain ⟨sh, kh⟩ := ph
  dsimp only at *
  obtain ⟨cl, ecl, dcl, hcl, cl1, cl2⟩ := logCore_scaled sl L2 L3 w
  obtain ⟨ch, ech, dch, hch, ch1, ch2⟩ := logCore_scaled sh U2 U3 w
  rw [ecl, ech] at hr
  simp only [Option.bind_eq_some_iff, Option.some.injEq] at hr
  obtain ⟨i, hi, _, rfl, _, rfl, rfl⟩ := hr
  unfold fromIntRange new at hi
  split at hi
  swap
  · simp at hi
  next hk =>
  simp only [Option.map_some, Option.some.injEq] at hi
  rw [convert_up _ w (Nat.zero_le w)] at hi
  dsimp only at hi
  rw [Nat.sub_zero] at hi
  subst hi
  obtain ⟨n1, n2, n3⟩ := hln2 w
  have l0 : 0 ≤ (ln2 w).lo := by
    obtain ⟨-, m2, -, -⟩ := isLn2_bounds n1 n2 n3
    have := log_two_gt
    have h1 : (2:ℝ) ^ 16 ≤ 2 ^ w := pow_le_pow_right₀ (by norm_num) (by omega)
    norm_num at h1
    have : (0:ℝ) ≤ (ln2 w).lo := by nlinarith
    exact_mod_cast this
  obtain ⟨p1, p2, p3⟩ := mul_ln2_ends hk n1 n2 n3 l0
  have hkl : (⟨kl * 2 ^ w, kh * 2 ^ w, w⟩ : DFI).Contains kl := by
    rw [contains_iff]; push_cast
    have : (kl:ℝ) ≤ kh := by exact_mod_cast hk
    exact ⟨le_refl _, by gcongr⟩
  have hkh : (⟨kl * 2 ^ w, kh * 2 ^ w, w⟩ : DFI).Contains kh := by
    rw [contains_iff]; push_cast
    have : (kl:ℝ) ≤ kh := by exact_mod_cast hk
    exact ⟨by gcongr, le_refl _⟩
  have ckl := contains_mul hkl n2
  have ckh := contains_mul hkh n2
  have cul := contains_union_left hcl hch.ordered
  have cuh := contains_union_right hcl.ordered hch
  refine ⟨kl, kh, sl, sh, by rw [← elo, L1], by rw [← ehi, U1], L2, L3, U2, U3, hk, ?_, ?_⟩
  · intro s hs k hk
    simp only [List.mem_cons, List.not_mem_nil, or_false] at hs hk
    apply contains_convert
    rcases hs with rfl | rfl <;> rcases hk with rfl | rfl
    · exact contains_add ckl cul
    · exact contains_add ckh cul
    · exact contains_add ckl cuh
    · exact contains_add ckh cuh
  · generalize (⟨kl * 2 ^ w, kh * 2 ^ w, w⟩ : DFI).mul (ln2 w) = R at p1 p2 p3 ⊢
    have hun : (cl.union ch).log2Denom = w ∧ (cl.union ch).lo = min cl.lo ch.lo ∧
        (cl.union ch).hi = max cl.hi ch.hi := by
      unfold union doOp
      rw [if_pos (by omega)]
      simp only [dcl, dch, shl, Nat.sub_self, pow_zero, mul_one]
      refine ⟨trivial, ?_, ?_⟩
      · split <;> omega
      · split <;> omega
    obtain ⟨e1, e2, e3⟩ := hun
    rw [add_same (by rw [p1, e1]), p1]
    have f1 : min (Real.log sl) (Real.log sh) * 2 ^ w - 2 ≤ ((cl.union ch).lo : ℝ) := by
      rw [e2]
      have g1 : min (Real.log sl) (Real.log sh) * 2 ^ w ≤ Real.log sl * 2 ^ w := by gcongr; exact min_le_left _ _
      have g2 : min (Real.log sl) (Real.log sh) * 2 ^ w ≤ Real.log sh * 2 ^ w := by gcongr; exact min_le_right _ _
      push_cast
      rw [le_min_iff]
      constructor <;> linarith
    have f2 : ((cl.union ch).hi : ℝ) ≤ max (Real.log sl) (Real.log sh) * 2 ^ w + 2 := by
      rw [e3]
      have g1 : Real.log sl * 2 ^ w ≤ max (Real.log sl) (Real.log sh) * 2 ^ w := by gcongr; exact le_max_left _ _
      have g2 : Real.log sh * 2 ^ w ≤ max (Real.log sl) (Real.log sh) * 2 ^ w := by gcongr; exact le_max_right _ _
      push_cast
      rw [max_le_iff]
      constructor <;> linarith
    unfold convertLog2Denom
    dsimp only
    generalize (cl.union ch).lo = ul at f1 ⊢
    generalize (cl.union ch).hi = uh at f2 ⊢
    have k1 := lt_convertFloor (R.lo + ul) w n
    have k2 := convertCeil_lt (R.hi + uh) w n
    have hW : (0:ℝ) < 2 ^ w := by positivity
    have hwr : (2:ℝ) ^ w = 2 ^ n * 2 ^ 16 := by rw [← pow_add]
    rw [div_lt_div_iff₀ hW hP, hwr] at k1
    rw [div_lt_div_iff₀ hP hW, hwr] at k2
    have k1' : (R.lo:ℝ) + ul < ((convertLog2DenomFloor (R.lo + ul) w n : ℤ) + 1) * 2 ^ 16 := by
      rw [← mul_lt_mul_iff_left₀ hP]; push_cast at k1 ⊢; linarith
    have k2' : ((convertLog2DenomCeil (R.hi + uh) w n : ℤ) - 1 : ℝ) * 2 ^ 16 < R.hi + uh := by
      rw [← mul_lt_mul_iff_left₀ hP]; push_cast at k2 ⊢; linarith
    rw [hwr] at p2 p3 f1 f2
    constructor
    · linarith
    · linarith

end DFI
end Algebraics
