import Verif.Props.TightLimit
import Verif.Lemmas.SelectExact
import Verif.Props.AlgNumPowIrr

/-!
# C47: the loop of `checked_pow` ends

The intervals of the power get arbitrarily narrow (`C72`), unless the power of the numerator is rational; then
there is no other root in the first interval already.
-/

namespace Algebraics

open Polynomial

namespace DFI

/-- the absolute value is no wider. -/
theorem abs_width_le (a : DFI) (ho : a.Ordered) : a.abs.width ≤ a.width := by
  obtain ⟨h1, h2, h3, h4, h5⟩ := abs_spec a ho
  unfold width
  rw [h1]
  apply div_le_div_of_nonneg_right _ (by positivity)
  unfold Ordered at ho
  have : a.abs.hi - a.abs.lo ≤ a.hi - a.lo := by
    rcases h4 with h | h | h <;> omega
  exact_mod_cast this

theorem width_sub (a : DFI) : (a.width : ℝ) = a.hi / 2 ^ a.log2Denom - a.lo / 2 ^ a.log2Denom := by
  unfold width; push_cast; ring

/-- an interval around an irrational number is at least one unit wide. -/
theorem unit_le_width {a : DFI} {x : ℝ} (hx : Irrational x) (hc : a.Contains x) :
    1 / 2 ^ a.log2Denom ≤ (a.width : ℝ) := by
  have hlt : a.lo < a.hi := by
    rcases lt_or_ge a.lo a.hi with h | h
    · exact h
    · exfalso
      have h1 : (a.hi : ℝ) ≤ a.lo := by exact_mod_cast h
      have h2 : (a.hi : ℝ) / 2 ^ a.log2Denom ≤ a.lo / 2 ^ a.log2Denom := by gcongr
      have h3 : x = a.lo / 2 ^ a.log2Denom := le_antisymm (hc.2.trans h2) hc.1
      exact hx ⟨a.lo / 2 ^ a.log2Denom, by rw [h3]; push_cast; rfl⟩
  unfold width
  have : (a.lo : ℝ) + 1 ≤ a.hi := by exact_mod_cast hlt
  push_cast
  gcongr
  linarith

/-- multiplying by a positive ratio widens by the ratio and at most two units. -/
theorem mulRatio_width (a : DFI) (q : ℚ) (hq : 0 < q) :
    ((a.mulRatio q).width : ℝ) ≤ q * a.width + 2 * (1 / 2 ^ a.log2Denom) := by
  unfold mulRatio width
  rw [if_neg (not_lt.mpr hq.le)]
  simp only
  have h1 : ((⌈q * a.hi⌉ : ℤ) : ℚ) < q * a.hi + 1 := Int.ceil_lt_add_one _
  have h2 : q * a.lo - 1 < ((⌊q * a.lo⌋ : ℤ) : ℚ) := Int.sub_one_lt_floor _
  have h3 : (((⌈q * a.hi⌉ : ℤ) : ℚ) - (⌊q * a.lo⌋ : ℤ)) / 2 ^ a.log2Denom ≤
      (q * (a.hi - a.lo) + 2) / 2 ^ a.log2Denom := by
    apply div_le_div_of_nonneg_right _ (by positivity)
    linarith
  have h4 := (Rat.cast_le (K := ℝ)).mpr h3
  push_cast at h4 ⊢
  refine h4.trans (le_of_eq ?_)
  ring

end DFI

namespace RealAlg

/-- `SmallAfter` in terms of the state that is reached. -/
theorem smallAfter_of_state {σ : Type} {g : σ → Option DFI} {sh : σ → Option σ} {δ : ℝ} (n : ℕ) :
    ∀ (st st' : σ) (i : DFI), stateAfter sh n st = some st' → g st' = some i → (i.width : ℝ) < δ →
      SmallAfter g sh δ n st := by
  induction n with
  | zero =>
    intro st st' i h1 h2 h3
    cases h1
    exact ⟨i, h2, h3⟩
  | succ n ih =>
    intro st st' i h1 h2 h3
    rw [stateAfter_succ] at h1
    cases hs : sh st with
    | none => rw [hs] at h1; cases h1
    | some st1 =>
      rw [hs] at h1
      exact ⟨st1, hs, ih st1 st' i h1 h2 h3⟩

theorem powState (s : Shrinker) (n : ℕ) :
    stateAfter powShrink n (s, 0) = (Shrinker.shrinkTimes n s).map fun t => (t, n) := by
  induction n with
  | zero => rfl
  | succ n ih =>
    simp only [stateAfter, ih, Shrinker.shrinkTimes]
    cases Shrinker.shrinkTimes n s with
    | none => rfl
    | some t =>
      simp only [Option.map_some, Option.bind_some, powShrink]
      cases t.shrink <;> rfl

/-- narrow intervals of the base give narrow intervals of the power, unless the power is a power of two. -/
theorem powInterval_converges (q : ℚ) (hq : 0 < q) (neg : Bool) (y : ℝ) (hy : Irrational y)
    (hj : ∀ j : ℤ, (q : ℝ) * Real.log |y| ≠ j * Real.log 2) (δ : ℝ) (hδ : 0 < δ) :
    ∃ η > 0, ∀ (ln2 : ℕ → DFI), IsLn2 ln2 → ∀ (t : Shrinker) (i : DFI), t.interval.Contains y →
      (t.interval.width : ℝ) < η → powInterval ln2 q neg t = some i → (i.width : ℝ) < δ := by
  have hy0 : 0 < |y| := abs_pos.mpr hy.ne_zero
  have hirr : Irrational |y| := by
    rcases abs_choice y with h | h <;> rw [h]
    · exact hy
    · exact hy.neg
  have hqr : (0:ℝ) < q := by exact_mod_cast hq
  obtain ⟨η1, hη1, c1⟩ := C72_exp_converges_partial (q * Real.log |y|) hj δ hδ
  obtain ⟨η2, hη2, c2⟩ := C72_log_converges_partial |y| hy0 (by
    intro j h
    exact hirr ⟨3 * 2 ^ j, by rw [h]; push_cast; rfl⟩) (η1 / (2 * q)) (by positivity)
  refine ⟨min (min η2 (η1 / 4)) |y|, lt_min (lt_min hη2 (by positivity)) hy0, ?_⟩
  intro ln2 hln2 t i hc hw hi
  simp only [lt_min_iff] at hw
  obtain ⟨⟨w1, w2⟩, w3⟩ := hw
  have ho : t.interval.Ordered := by
    have := hc.1.trans hc.2
    rw [div_le_div_iff_of_pos_right (by positivity)] at this
    unfold DFI.Ordered; exact_mod_cast this
  obtain ⟨a1, a2, a3, -, -⟩ := DFI.abs_spec t.interval ho
  have aw : (t.interval.abs.width : ℝ) ≤ t.interval.width := by
    exact_mod_cast DFI.abs_width_le t.interval ho
  have ac := DFI.contains_abs hc
  have au := DFI.unit_le_width hirr ac
  have alo : t.interval.abs.lo ≠ 0 := by
    intro h0
    have := ac.2
    rw [DFI.width_sub, h0] at aw
    push_cast at aw
    rw [zero_div, sub_zero] at aw
    linarith
  have ahi : t.interval.abs.hi ≠ 0 := by omega
  unfold powInterval at hi
  simp only [alo, ahi, decide_false, if_false, Bool.false_eq_true, Option.bind_eq_bind,
    Option.bind_eq_some_iff] at hi
  obtain ⟨L, hL, r, hr, i', hi', hi⟩ := hi
  simp only [Option.some.injEq] at hi'
  subst hi'
  obtain ⟨l1, l2, l3⟩ := c2 ln2 hln2 _ L ac (by linarith) (by linarith) hL
  have mc := DFI.contains_mulRatio l2 q
  rw [mul_comm] at mc
  have mw := DFI.mulRatio_width L q hq
  have md : (L.mulRatio q).log2Denom = L.log2Denom := by unfold DFI.mulRatio; split <;> rfl
  obtain ⟨r1, r2⟩ := c1 ln2 hln2 (L.mulRatio q) r mc (by
    have h1 : (q:ℝ) * L.width < η1 / 2 := by
      rw [lt_div_iff₀ (by positivity)] at l3
      linarith
    rw [l1] at mw
    linarith) (by rw [md, l1]; linarith) hr
  simp only [pure, Option.some.injEq] at hi
  subst hi
  split
  · have : r.neg.width = r.width := by unfold DFI.neg DFI.width; push_cast; ring
    rw [this]; exact r2
  · exact r2


/-- the loop ends when the interval is narrow, if the intervals up to then hold the root. -/
theorem selectLoop_narrow {σ : Type} {g : σ → Option DFI} {sh : σ → Option σ} {v δ : ℝ} (n : ℕ) :
    ∀ (st : σ) (ps : List (Poly ℤ)), SmallAfter g sh δ n st →
    (∀ k ≤ n, ∀ st', stateAfter sh k st = some st' → ∃ i, g st' = some i ∧ i.Contains v) →
    (∀ p ∈ ps, Irreducible p.toPoly ∧ 0 < p.toPoly.leadingCoeff ∧
      ∀ y : ℝ, aeval y p.toPoly = 0 → y ≠ v → δ ≤ |y - v|) →
    ps.Pairwise (fun p q => IsCoprime (p.toPoly.map (Int.castRingHom ℚ))
      (q.toPoly.map (Int.castRingHom ℚ))) →
    (∃ p ∈ ps, aeval v p.toPoly = 0) →
    ∃ c, selectLoop g sh (n + 1) st (ps.map seqOf) = .ok c := by
  induction n with
  | zero =>
    intro st ps hsmall hget hps hpw hv
    obtain ⟨i, hi, hw⟩ := hsmall
    obtain ⟨i', hi', hiv⟩ := hget 0 le_rfl st rfl
    obtain rfl : i = i' := by rw [hi] at hi'; exact Option.some.inj hi'
    obtain ⟨hl, hu⟩ := (DFI.contains_iff_bounds _ _).mp hiv
    rw [DFI.width_real] at hw
    rcases selectLoop_turn (shrinkInterval := sh) st hi hiv ps
      (fun p hp => ⟨(hps p hp).1, (hps p hp).2.1⟩) hv 0 with
      ⟨c, h1, h2⟩ | ⟨q, h1, h2, h3, h4⟩ | ⟨h1, -⟩
    · exact ⟨c, h1⟩
    · exact ⟨_, h1⟩
    · have := sum_rootCount_le i.lowerBound i.upperBound v ps (fun p hp =>
        ⟨(hps p hp).1.ne_zero, fun y hy1 hy2 hy3 => ?_⟩) hpw
      · omega
      · by_contra hyv
        have := (hps p hp).2.2 y hy3 hyv
        have h5 : |y - v| < δ := by rw [abs_lt]; constructor <;> linarith
        linarith
  | succ n ih =>
    intro st ps hsmall hget hps hpw hv
    obtain ⟨st', hst', hsm⟩ := hsmall
    obtain ⟨i, hi, hiv⟩ := hget 0 (by omega) st rfl
    rcases selectLoop_turn (shrinkInterval := sh) st hi hiv ps
      (fun p hp => ⟨(hps p hp).1, (hps p hp).2.1⟩) hv (n + 1) with
      ⟨c, h1, h2⟩ | ⟨q, h1, h2, h3, h4⟩ | ⟨-, kept, h1, h2, h3⟩
    · exact ⟨c, h1⟩
    · exact ⟨_, h1⟩
    · rw [h3, hst']
      refine ih st' kept hsm (fun k hk st'' hst'' => hget (k + 1) (by omega) st'' ?_)
        (fun p hp => hps p (h1.subset hp)) (hpw.sublist h1) h2
      rw [stateAfter_succ, hst']
      exact hst''

/-- the same for `select_root`. -/
theorem selectRoot_narrow {σ : Type} {g : σ → Option DFI} {sh : σ → Option σ} {v δ : ℝ} (n : ℕ)
    (F : FactorCall) (R : Poly ℤ) (hR : R.toPoly ≠ 0) (r : Poly.Factors) (hF : F R = .ok r)
    (hr : FactorsOf r R.toPoly) (hv : aeval v R.toPoly = 0)
    (hgap : ∀ y : ℝ, aeval y R.toPoly = 0 → y ≠ v → δ ≤ |y - v|) (st : σ) (hsmall : SmallAfter g sh δ n st)
    (hget : ∀ k ≤ n, ∀ st', stateAfter sh k st = some st' → ∃ i, g st' = some i ∧ i.Contains v) :
    ∃ c, ∀ fuel ≥ n + 1, selectRoot g sh F fuel st R = .ok c := by
  obtain ⟨e, he, hev⟩ := factors_root hr hR v hv
  obtain ⟨c, hc⟩ := selectLoop_narrow n st (r.factors.map (·.1)) hsmall hget (by
    intro p hp
    obtain ⟨e, he, rfl⟩ := List.mem_map.mp hp
    exact ⟨hr.irreducible e he, hr.positive e he, fun y hy => hgap y (factor_root_root hr e he _ hy)⟩) (by
    rw [List.pairwise_map]; exact hr.coprime) ⟨e.1, List.mem_map.mpr ⟨e, he, rfl⟩, hev⟩
  rw [← selectRoot_eq_loop F R r hF hr] at hc
  exact ⟨c, fun fuel hf => selectRoot_mono _ _ _ _ _ _ _ hc _ hf⟩

/-- C47, in part: `checked_pow` returns, with the power, for every non-zero base that has the power. There is a
number of turns `K`, which depends on the base and the exponent only, such that: if the first `K + 1` of the
intervals that `log` and `exp` compute hold the power, `checked_pow` returns the power after at most `K + 1` turns;
whatever the cache of `log 2` holds in each turn. So the loop over ever narrower intervals ends (`C72`).
Missing: that `exp` returns and its result holds the power (`C08_panics_false`, `C08_enclosure_false`); that the
reciprocal taken for a negative exponent represents the reciprocal (`C40_recip_false`). -/
theorem _root_.Algebraics.C47_returns_partial
    (a b : RealAlg) (x : ℝ) (h : a.Represents x) (hx : x ≠ 0) (e : ℚ) (hxe : 0 < x ∨ e.den = 1)
    [Decidable (x < 0)] (M : ℕ) (hb : ∀ fuel ≥ M, powBase fuel a e = .ok b)
    (hbr : b.Represents (if e < 0 then x⁻¹ else x)) :
    ∃ K, ∀ (ln2 : ℕ → ℕ → DFI) (F : FactorCall), (∀ t, IsLn2 (ln2 t)) →
      (∀ R, powResultant b.poly e.num.natAbs e.den = some R → FactorsRight F R) →
      (∀ s k t, b.intervalShrinker = .ok s → k ≤ K → Shrinker.shrinkTimes k s = some t →
        ∃ i, powInterval (ln2 k) |e| (decide (x < 0) && decide (e.num % 2 ≠ 0)) t = some i ∧
          i.Contains (powValue x e)) →
      ∃ c, c.Represents (powValue x e) ∧ ∀ fuel > K, a.checkedPow ln2 F fuel e = .ok (some c) := by
  by_cases hspec : e = -1 ∨ e = 0
  · refine ⟨M, fun ln2 F hln2 hF _ => ?_⟩
    rcases hspec with hm1 | h0
    · refine ⟨b, ?_, fun fuel hf => ?_⟩
      · rw [if_pos (by rw [hm1]; norm_num)] at hbr
        rw [hm1, show (-1 : ℚ) = ((-1 : ℤ) : ℚ) by simp, powValue_int, zpow_neg_one]
        exact hbr
      · have h3 := hb fuel (le_of_lt hf)
        unfold powBase at h3
        rw [if_pos (by rw [hm1]; norm_num), (C40_recip_method a _).1] at h3
        unfold checkedPow
        rw [if_neg (by rw [hm1]; norm_num), if_neg (by rw [hm1]; norm_num), if_pos hm1]
        exact h3
    · refine ⟨one, ?_, fun fuel _ => ?_⟩
      · rw [h0, show (0 : ℚ) = ((0 : ℤ) : ℚ) by simp, powValue_int, zpow_zero]
        exact one_represents
      · unfold checkedPow
        rw [if_pos h0, if_neg]
        · rfl
        · intro hz; exact hx (h.isZero_iff.mp hz)
  push Not at hspec
  obtain ⟨hm1, h0⟩ := hspec
  set neg := (decide (x < 0) && decide (e.num % 2 ≠ 0)) with hneg
  set y := (if e < 0 then x⁻¹ else x) with hy
  have hn : e.num.natAbs ≠ 0 := by
    have : e.num ≠ 0 := by simpa using h0
    omega
  have hy0 : y ≠ 0 := by rw [hy]; split <;> [exact inv_ne_zero hx; exact hx]
  have hv := powValue_pow y |e| (abs_pos.mpr h0) (by
    rw [(abs_num_den e).1]
    refine hxe.imp_left fun hp => ?_
    rw [hy]
    split
    · exact inv_pos.mpr hp
    · exact hp)
  rw [(abs_num_den e).1, (abs_num_den e).2, hy, ← powValue_abs x e hxe, ← hy] at hv
  obtain ⟨R, s, r1, r2, r3, r4, r5, -⟩ := powGeneral_eq (fun _ => ln2Direct) (fun _ => .error .panic) M a b y e h0
    (hb M le_rfl) hbr neg
  have hroot : aeval (powValue x e) R.toPoly = 0 := by
    rw [← aeval_realCast, r5]
    exact ⟨y, (aeval_realCast _ _).mpr hbr.root, by exact_mod_cast hv⟩
  -- enough: the selection returns
  suffices hsel : ∃ K, ∀ (ln2 : ℕ → ℕ → DFI) (F : FactorCall), (∀ t, IsLn2 (ln2 t)) →
      FactorsRight F R →
      (∀ k ≤ K, ∀ t, Shrinker.shrinkTimes k s = some t →
        ∃ i, powInterval (ln2 k) |e| neg t = some i ∧ i.Contains (powValue x e)) →
      ∃ c, ∀ fuel > K, selectRoot (powGetInterval ln2 |e| neg) powShrink F fuel (s, 0) R = .ok c by
    obtain ⟨K, hK⟩ := hsel
    refine ⟨max M K, fun ln2 F hln2 hF hi => ?_⟩
    obtain ⟨c, hc⟩ := hK ln2 F hln2 (hF R r1) fun k hk t ht => hi s k t r3 (hk.trans (le_max_right _ _)) ht
    have hgen : ∀ fuel > max M K,
        a.powGeneral ln2 F fuel (decide (e < 0)) e.num.natAbs e.den neg = .ok c := by
      intro fuel hf
      rw [gt_iff_lt, max_lt_iff] at hf
      obtain ⟨R', s', r1', -, r3', -, -, r6⟩ := powGeneral_eq ln2 F fuel a b y e h0 (hb fuel hf.1.le) hbr neg
      rw [r1] at r1'
      rw [r3] at r3'
      cases r1'
      cases r3'
      rw [r6]
      exact hc fuel hf.2
    have heq : ∀ fuel > max M K, a.checkedPow ln2 F fuel e = a.checkedPow ln2 F (max M K + 1) e := by
      intro fuel hf
      unfold checkedPow powTail
      rw [if_neg hm1, if_neg hm1, h.isNegative_eq]
      simp only [bind, Except.bind]
      rw [← hneg, hgen fuel hf, hgen _ (Nat.lt_succ_self _)]
    have hret : ∃ c, a.checkedPow ln2 F (max M K + 1) e = .ok (some c) := by
      rcases checkedPow_cases ln2 F (max M K + 1) a x h hx e hxe with
        ⟨c', h1, h2⟩ | ⟨h1, -, h2⟩ | ⟨-, -, h2⟩
      · exact ⟨c', h1⟩
      · exact absurd h1 hm1
      · exact ⟨c, by rw [h2, hgen _ (Nat.lt_succ_self _)]; rfl⟩
    obtain ⟨c', hc'⟩ := hret
    refine ⟨c', ?_, fun fuel hf => (heq fuel hf).trans hc'⟩
    refine C47_power_partial ln2 hln2 F (max M K + 1) a b x h hx e hxe
      (hb _ ((le_max_left _ _).trans (Nat.le_succ _))) hbr hF ?_ c' hc'
    intro s k t i h1 hk h2 h3
    obtain ⟨i', h4, h5⟩ := hi s k t h1 (by omega) h2
    rw [← hneg, h4] at h3
    cases h3
    exact h5
  by_cases hrat : Irrational (y ^ e.num.natAbs)
  · have hyi : Irrational y := by
      rintro ⟨q, hq⟩
      exact hrat ⟨q ^ e.num.natAbs, by rw [← hq]; push_cast; rfl⟩
    have hj : ∀ j : ℤ, ((|e| : ℚ) : ℝ) * Real.log |y| ≠ j * Real.log 2 := by
      intro j hj
      have hd0 : (e.den : ℝ) ≠ 0 := by exact_mod_cast e.den_nz
      have habs : ((|e| : ℚ) : ℝ) * e.den = e.num.natAbs := by
        have : |e| * e.den = (e.num.natAbs : ℚ) := by
          rw [← (abs_num_den e).1, Rat.mul_den_eq_num, ← (abs_num_den e).2]
          have : 0 ≤ |e|.num := Rat.num_nonneg.mpr (abs_nonneg e)
          have h1 : (|e|.num : ℤ) = (|e|.num.natAbs : ℤ) := (Int.natAbs_of_nonneg this).symm
          rw [← Int.cast_natCast, ← h1]
        exact_mod_cast this
      have h1 : Real.log (|y| ^ e.num.natAbs) = Real.log ((2:ℝ) ^ (j * e.den)) := by
        rw [Real.log_pow, Real.log_zpow, ← habs]
        rw [Int.cast_mul, Int.cast_natCast]
        linear_combination (e.den : ℝ) * hj
      have h2 : |y| ^ e.num.natAbs = (2:ℝ) ^ (j * e.den) :=
        Real.log_injOn_pos (Set.mem_Ioi.mpr (pow_pos (abs_pos.mpr hy0) _))
          (Set.mem_Ioi.mpr (zpow_pos two_pos _)) h1
      rw [← abs_pow] at h2
      rcases abs_choice (y ^ e.num.natAbs) with h3 | h3 <;> rw [h3] at h2
      · exact hrat ⟨2 ^ (j * e.den), by rw [h2]; push_cast; rfl⟩
      · exact hrat ⟨-2 ^ (j * e.den), by push_cast; linarith⟩
    obtain ⟨s', s1, s2, T, t1, t2⟩ := C42_shrink b y hbr
    rw [r3] at s1
    cases s1
    obtain ⟨δ, hδ, hgap⟩ := exists_gap R.toPoly r2 (powValue x e)
    obtain ⟨η, hη, conv⟩ := powInterval_converges |e| (abs_pos.mpr h0) neg y hyi hj δ hδ
    obtain ⟨n, hn⟩ := (t2.eventually (gt_mem_nhds hη)).exists
    refine ⟨n, fun ln2 F hln2 hF hi => ?_⟩
    obtain ⟨r, hr1, hr2⟩ := hF
    obtain ⟨i, i1, -⟩ := hi n le_rfl (T n) (t1 n).1
    refine selectRoot_narrow n F R r2 r hr1 hr2 hroot hgap (s, 0)
      (smallAfter_of_state n (s, 0) (T n, n) i (by rw [powState, (t1 n).1]; rfl) i1
        (conv (ln2 n) (hln2 n) (T n) i (t1 n).2.1.mem hn i1)) fun k hk st' hst' => ?_
    rw [powState, Option.map_eq_some_iff] at hst'
    obtain ⟨t, ht, rfl⟩ := hst'
    exact hi k hk t ht
  · obtain ⟨p, hp⟩ := not_not.mp hrat
    refine ⟨0, fun ln2 F hln2 hF hi => ?_⟩
    obtain ⟨r, hr1, hr2⟩ := hF
    obtain ⟨i, i1, i2⟩ := hi 0 le_rfl s rfl
    obtain ⟨c, hc, -⟩ := selectRoot_single (getInterval := powGetInterval ln2 |e| neg)
      (shrinkInterval := powShrink) F R r2 r hr1 hr2 hroot (s, 0) i1 i2 (fun t ht ht0 => by
        obtain ⟨w, w1, w2⟩ := (r5 t).mp ((aeval_realCast _ _).mpr ht0)
        have h5 := root_transfer hbr.irreducible hbr.natDegree_pos ((aeval_realCast _ _).mpr hbr.root) w1
          (X ^ e.num.natAbs - C p) (by
            simp only [map_sub, map_pow, aeval_X, aeval_C, eq_ratCast]
            rw [sub_eq_zero]
            exact_mod_cast hp.symm)
        simp only [map_sub, map_pow, aeval_X, aeval_C, eq_ratCast, sub_eq_zero] at h5
        have h6 : t ^ e.den = powValue x e ^ e.den := by
          rw [hv, ← hp]
          have := w2.trans h5
          exact_mod_cast this
        rcases hxe with hxe | hxe
        · have hneg' : neg = false := by
            rw [hneg, show decide (x < 0) = false by simp [hxe.le], Bool.false_and]
          have ht1 : 0 ≤ t := by
            have h3 : (0 : ℝ) ≤ i.lo := by
              rw [hneg'] at i1
              exact_mod_cast (powInterval_nonneg (ln2 0) (hln2 0) |e| s y r4.rep.mem i i1).1
            exact le_trans (by positivity) ht.1
          exact (pow_left_inj₀ ht1 (powValue_pos _ _ hxe).le e.den_nz).mp h6
        · rw [hxe, pow_one, pow_one] at h6
          exact h6) 0
    exact ⟨c, fun fuel hf => selectRoot_mono _ _ _ _ _ _ _ hc _ hf⟩

/-- shrinking leaves a single point alone. -/
theorem shrinkTimes_point (s : Shrinker) (h : s.interval.lo = s.interval.hi) (k : ℕ) :
    Shrinker.shrinkTimes k s = some s := by
  induction k with
  | zero => rfl
  | succ k ih =>
    simp only [Shrinker.shrinkTimes, ih, Option.bind_some]
    unfold Shrinker.shrink
    simp [h]

/-- the theorem applies to `√2 = 2^(1/2)`, whatever the cache holds. -/
example : ∃ K, ∀ ln2 : ℕ → ℕ → DFI, (∀ t, IsLn2 (ln2 t)) → ∃ c, c.Represents √2 ∧
    ∀ fuel > K, (ofInt 2).checkedPow ln2 trivialFactor fuel (1 / 2) = .ok (some c) := by
  classical
  have hb : ∀ fuel ≥ 0, powBase fuel (ofInt 2) (1 / 2) = .ok (ofInt 2) := by
    intro fuel _
    unfold powBase; rw [if_neg (by norm_num)]
  have hr : (ofInt 2).Represents (2 : ℝ) := by have := ofInt_represents 2; simpa using this
  have hv : powValue 2 (1 / 2) = √2 := by
    unfold powValue
    rw [if_neg (by norm_num), Real.sqrt_eq_rpow]
    norm_num
  have hd : (1 / 2 : ℚ).den = 2 := by norm_num
  have hn : (1 / 2 : ℚ).num.natAbs = 1 := by norm_num
  obtain ⟨K, hK⟩ := C47_returns_partial (ofInt 2) (ofInt 2) 2 hr (by norm_num) (1 / 2) (Or.inl (by norm_num)) 0
    hb (by rw [if_neg (by norm_num)]; exact hr)
  refine ⟨K, fun ln2 hln2 => ?_⟩
  rw [← hv]
  refine hK ln2 trivialFactor hln2 ?_ ?_
  · intro R h2
    rw [hd, hn] at h2
    have h3 : powResultant (ofInt 2).poly 1 2 = some (.ofCoeffs [-2, 0, 1]) := by decide +kernel
    rw [h3] at h2
    cases h2
    refine trivialFactor_right 0 (-2) fun n hn => ?_
    have h2 : n < 2 := by nlinarith
    have h3 : -2 < n := by nlinarith
    interval_cases n <;> omega
  · intro s k t h1 _ h2
    obtain ⟨s', h3, -, h5⟩ := hr.intervalShrinker
    rw [h1] at h3
    cases h3
    rw [shrinkTimes_point s (by rw [h5]; rfl)] at h2
    cases h2
    rw [show decide ((2 : ℝ) < 0) = false by simp, Bool.false_and, abs_of_pos (by norm_num), powValue_rpow]
    refine powInterval_int (ln2 k) (hln2 k) (1 / 2) (by norm_num) s 2 (by norm_num) (by rw [h5]; exact hr.mem)
      (by rw [h5]; rfl) (by rw [h5]; decide) ?_
    rw [h5, show (ofInt 2).interval.hi.toNat = 2 ^ 1 by rfl, Nat.log_pow (by norm_num)]
    norm_num

end RealAlg

end Algebraics
